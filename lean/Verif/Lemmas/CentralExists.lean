import Verif.Lemmas.CentralPoint
import Verif.Lemmas.Costs

/-!
# Lemmas for C89: existence and uniqueness of the central point, and its distance from scaling points
-/

namespace Verif.Centering

open Finset Verif.Dual Iteration.Spec Whole.Spec Spec
open Whole (nth_get nth_mem nth_of forall₂_nth ventry_congr)

/-- The functional of row `r` of constraint `i`. -/
theorem row_sum {es : List (Entry ℝ)} {N : Nat} (hs : Shape es N) {i : Nat} (hi : i < es.length) {r : Nat}
    (hr : r < (con (nth es i).item).n) (y : Nat → ℝ) :
    ∑ u ∈ range N, Sup.Spec.ventry (nth es i).vars ((con (nth es i).item).A r) u * y u =
      ∑ j ∈ range (con (nth es i).item).m, (con (nth es i).item).A r j * y ((nth es i).vars.getD j 0) := by
  obtain ⟨h1, h2⟩ := hs.vars _ (nth_mem hi)
  rcases hs.kind i hi with ⟨o, w, ho, -, hm⟩ | ⟨n, Q, ho, -, -⟩
  · have e1 : con (nth es i).item = o := by rw [ho]; rfl
    have := Gap.sum_ventry h1 h2 y ((con (nth es i).item).A r)
    rw [sum_congr rfl fun u _ => mul_comm _ _, this, e1, ← hm]
    exact sum_congr rfl fun j _ => mul_comm _ _
  · rw [ho] at hr
    exact absurd hr (Nat.not_lt_zero r)

/-! ### Costs -/

theorem curvature_nonneg {es : List (Entry ℝ)} {N : Nat} (hs : Shape es N) (y : Nat → ℝ) : 0 ≤ curvature es N y := hs.costs.curvature_nonneg y

theorem gradients_mul {es : List (Entry ℝ)} {N : Nat} (hs : Shape es N) (a : ℝ) (y : Nat → ℝ) (u : Nat) :
    gradients es (fun v => a * y v) u = a * gradients es y u := hs.costs.gradients_mul a y u

theorem gradients_add {es : List (Entry ℝ)} {N : Nat} (hs : Shape es N) (y z : Nat → ℝ) (u : Nat) :
    gradients es (fun v => y v + z v) u = gradients es y u + gradients es z u := hs.costs.gradients_add y z u

theorem gradients_sub {es : List (Entry ℝ)} {N : Nat} (hs : Shape es N) (y z : Nat → ℝ) (u : Nat) :
    gradients es (fun v => y v - z v) u = gradients es y u - gradients es z u := hs.costs.gradients_sub y z u

/-- Displacements that change neither slacks nor costs are zero. -/
theorem determined_zero {es : List (Entry ℝ)} {N : Nat} (hs : Shape es N) (hd : Determined N es) {y : Nat → ℝ}
    (h : ∀ i < es.length, ∀ r < (con (nth es i).item).n,
      ∑ j ∈ range (con (nth es i).item).m, (con (nth es i).item).A r j * y ((nth es i).vars.getD j 0) = 0)
    (hq : curvature es N y = 0) : ∀ u < N, y u = 0 := by
  by_contra hcon
  push Not at hcon
  obtain ⟨e, he, hn⟩ := hd y hcon
  obtain ⟨i, hi⟩ := List.getElem?_of_mem he
  have hlt := (List.getElem?_eq_some_iff.1 hi).1
  have hi' := nth_of hi
  subst hi'
  refine hn ?_
  rcases hs.kind i hlt with ⟨o, w, ho, -, -⟩ | ⟨n, Q, ho, hn, -⟩
  · have := h i hlt
    rw [ho] at this ⊢
    exact this
  · rw [hs.costs.curvature_eq] at hq
    have := (sum_eq_zero_iff_of_nonneg fun i hi => hs.costs.form_nonneg y (mem_range.1 hi)).1 hq i (mem_range.2 hlt)
    rw [ho, ← hn] at this
    rw [ho]
    exact this

/-- Existence. -/
theorem central_exists {es : List (Entry ℝ)} {N : Nat} (hs : Shape es N) (hd : Determined N es) {g : Nat → ℝ} {c : ℝ}
    {y : Nat → ℝ} {x : Nat → Nat → ℝ} {w : Nat → ℝ} (h : Interior es N g c y x w) : ∃ z, Central es N g c z := by
  set α : ((i : Fin es.length) × Fin (con (nth es i).item).n) → Fin N → ℝ := fun k u =>
    Sup.Spec.ventry (nth es k.1).vars ((con (nth es k.1).item).A k.2) u with hα
  set d : ((i : Fin es.length) × Fin (con (nth es i).item).n) → ℝ := fun k => c * (con (nth es k.1).item).c k.2 with hd'
  set Q : Fin N → Fin N → ℝ := fun u v => ∑ i ∈ range es.length, Sup.Spec.ventry (nth es i).vars
    (fun j => Sup.Spec.ventry (nth es i).vars (qmat (nth es i).item j) v) u with hQ
  have hslk : ∀ (y : Nat → ℝ) k, Barrier.slk α d k (fun u => y u) = slack es c y k.1 k.2 := by
    intro y k
    unfold Barrier.slk slack
    rw [← row_sum hs k.1.2 k.2.2 y, ← Fin.sum_univ_eq_sum_range (fun u => Sup.Spec.ventry (nth es k.1).vars
      ((con (nth es k.1).item).A k.2) u * y u)]
  have hgrad : ∀ (y : Nat → ℝ) (u : Fin N), ∑ v, Q u v * y v = gradients es y u := by
    intro y u
    rw [hs.costs.gradients_eq, ← Fin.sum_univ_eq_sum_range (fun v => (∑ i ∈ range es.length, Sup.Spec.ventry (nth es i).vars
      (fun j => Sup.Spec.ventry (nth es i).vars (qmat (nth es i).item j) v) u) * y v)]
  have hbal : ∀ (x : Nat → Nat → ℝ) (u : Fin N), ∑ k, α k u * x k.1 k.2 = balance es x u := by
    intro x u
    rw [Fintype.sum_sigma]
    unfold balance
    rw [← Fin.sum_univ_eq_sum_range (fun i => Sup.Spec.ventry (nth es i).vars
      (fun j => ∑ r ∈ range (con (nth es i).item).n, (con (nth es i).item).A r j * x i r) u)]
    refine sum_congr rfl fun i _ => ?_
    simp only [hα, ventry_mul]
    rw [ventry_sum]
    refine ventry_congr (fun j _ => ?_) u
    exact Fin.sum_univ_eq_sum_range (fun r => (con (nth es i).item).A r j * x i r) _
  have hcurv : ∀ y : Nat → ℝ, Barrier.quad Q (fun u => y u) = curvature es N y := by
    intro y
    unfold Barrier.quad curvature
    rw [← Fin.sum_univ_eq_sum_range (fun u => y u * gradients es y u)]
    exact sum_congr rfl fun u _ => by rw [hgrad]
  have hext : ∀ y : Fin N → ℝ, ∃ y' : Nat → ℝ, y = fun u : Fin N => y' u := fun y =>
    ⟨fun u => if h : u < N then y ⟨u, h⟩ else 0, by
      funext u
      simp [u.2]⟩
  have hsym : ∀ u v, Q u v = Q v u := by
    intro u v
    refine sum_congr rfl fun i hi => ?_
    rcases hs.kind i (mem_range.1 hi) with ⟨o, w, ho, -, -⟩ | ⟨n, Q, ho, hn, hQ⟩
    · rw [ho]
      simp [qmat, Sup.Spec.ventry]
    · unfold Sup.Spec.ventry
      split_ifs with h1 h2
      · rw [ho]
        exact hQ.1 _ (hn ▸ List.idxOf_lt_length_iff.2 h1) _ (hn ▸ List.idxOf_lt_length_iff.2 h2)
      all_goals rfl
  obtain ⟨z, h1, h2⟩ := Barrier.stationary (α := α) (Q := Q) (d := d) (y₁ := fun u => y u) (x := fun k => x k.1 k.2)
    hsym (fun y' => by
      obtain ⟨y', rfl⟩ := hext y'
      rw [hcurv]
      exact curvature_nonneg hs y')
    (fun y' g1 g2 => by
      obtain ⟨y', rfl⟩ := hext y'
      rw [hcurv] at g2
      funext u
      refine determined_zero hs hd (fun i hi r hr => ?_) g2 u u.2
      rw [← row_sum hs hi hr]
      have := g1 ⟨⟨i, hi⟩, ⟨r, hr⟩⟩
      rw [Fin.sum_univ_eq_sum_range (fun u => Sup.Spec.ventry (nth es i).vars ((con (nth es i).item).A r) u * y' u)]
        at this
      exact this) (fun u => w u)
    (fun k => h.dual k.1 k.1.2 k.2 k.2.2) (fun k => by
      rw [hslk]
      exact h.primal k.1 k.1.2 k.2 k.2.2)
  obtain ⟨z, rfl⟩ := hext z
  refine ⟨z, fun i hi r hr => ?_, fun u hu => ?_⟩
  · have := h1 ⟨⟨i, hi⟩, ⟨r, hr⟩⟩
    rw [hslk] at this
    exact this
  · have h3 := h2 ⟨u, hu⟩
    simp only [hslk, div_eq_mul_one_div (α _ _)] at h3
    rw [hbal (fun i r => 1 / slack es c z i r), hgrad, hgrad, sum_congr rfl fun k _ => mul_comm _ _,
      hbal x] at h3
    rw [h3]
    exact h.equations u hu

/-! ### Uniqueness -/

theorem balance_mul (es : List (Entry ℝ)) (a : ℝ) (x : Nat → Nat → ℝ) (u : Nat) :
    balance es (fun i r => a * x i r) u = a * balance es x u := by
  unfold balance
  rw [mul_sum]
  refine sum_congr rfl fun i _ => ?_
  rw [mul_comm a, ventry_mul]
  refine ventry_congr (fun j _ => ?_) u
  rw [sum_mul]
  exact sum_congr rfl fun r _ => by ring

theorem balance_sub (es : List (Entry ℝ)) (x x' : Nat → Nat → ℝ) (u : Nat) :
    balance es (fun i r => x i r - x' i r) u = balance es x u - balance es x' u := by
  unfold balance
  rw [← sum_sub_distrib]
  refine sum_congr rfl fun i _ => ?_
  unfold Sup.Spec.ventry
  split_ifs
  · rw [← sum_sub_distrib]
    exact sum_congr rfl fun r _ => by ring
  · ring

/-- The products of differences of dual variables and slacks. -/
theorem identity {es : List (Entry ℝ)} {N : Nat} (hs : Shape es N) (x x' : Nat → Nat → ℝ) (y y' : Nat → ℝ) (c : ℝ) :
    rows es (fun i r => (x i r - x' i r) * (slack es c y i r - slack es c y' i r)) =
      -∑ u ∈ range N, (y u - y' u) * (balance es x u - balance es x' u) := by
  have h1 := pairing hs (fun i r => x i r - x' i r) fun u => y u - y' u
  simp only [balance_sub] at h1
  rw [h1, ← neg_one_mul, ← rows_mul]
  refine rows_congr fun i _ r _ => ?_
  unfold slack
  simp only [mul_sub, sum_sub_distrib]
  ring

theorem central_unique {es : List (Entry ℝ)} {N : Nat} (hs : Shape es N) (hd : Determined N es) {g : Nat → ℝ} {c : ℝ}
    {z z' : Nat → ℝ} (h : Central es N g c z) (h' : Central es N g c z') : ∀ u < N, z' u = z u := by
  set s := slack es c z with hs'
  set s' := slack es c z' with hs''
  have h1 := monotone hs (x := fun i r => 1 / s i r) (x' := fun i r => 1 / s' i r) (y := z) (y' := z') c fun u hu =>
    (h.stationary u hu).trans (h'.stationary u hu).symm
  have hterm : ∀ i < es.length, ∀ r < (con (nth es i).item).n,
      (1 / s i r - 1 / s' i r) * (s i r - s' i r) = -((s i r - s' i r) ^ 2 / (s i r * s' i r)) := by
    intro i hi r hr
    have g1 : 0 < s i r := h.interior i hi r hr
    have g2 : 0 < s' i r := h'.interior i hi r hr
    field_simp
    ring
  have hnn : ∀ i < es.length, ∀ r < (con (nth es i).item).n, 0 ≤ (s i r - s' i r) ^ 2 / (s i r * s' i r) :=
    fun i hi r hr => div_nonneg (sq_nonneg _) (mul_pos (h.interior i hi r hr) (h'.interior i hi r hr)).le
  have heq : ∀ i < es.length, ∀ r < (con (nth es i).item).n, s i r = s' i r := by
    have h2 : rows es (fun i r => (s i r - s' i r) ^ 2 / (s i r * s' i r)) = 0 := by
      refine le_antisymm ?_ (sum_nonneg fun i hi => sum_nonneg fun r hr => hnn i (mem_range.1 hi) r (mem_range.1 hr))
      have h3 : rows es (fun i r => (1 / s i r - 1 / s' i r) * (s i r - s' i r)) =
          -rows es fun i r => (s i r - s' i r) ^ 2 / (s i r * s' i r) := by
        rw [← neg_one_mul, ← rows_mul]
        exact rows_congr fun i hi r hr => by rw [hterm i hi r hr, neg_one_mul]
      linarith
    intro i hi r hr
    have h3 := (sum_eq_zero_iff_of_nonneg fun i hi => sum_nonneg fun r hr =>
      hnn i (mem_range.1 hi) r (mem_range.1 hr)).1 h2 i (mem_range.2 hi)
    have h4 := (sum_eq_zero_iff_of_nonneg fun r hr => hnn i hi r (mem_range.1 hr)).1 h3 r (mem_range.2 hr)
    rcases div_eq_zero_iff.1 h4 with h5 | h5
    · exact sub_eq_zero.1 (pow_eq_zero_iff two_ne_zero |>.1 h5)
    · exact absurd h5 (mul_pos (h.interior i hi r hr) (h'.interior i hi r hr)).ne'
  intro u hu
  refine sub_eq_zero.1 (determined_zero hs hd (y := fun u => z' u - z u) (fun i hi r hr => ?_) ?_ u hu)
  · have := heq i hi r hr
    simp only [hs', hs'', slack] at this
    simp only [mul_sub, sum_sub_distrib]
    linarith
  · refine sum_eq_zero fun v hv => ?_
    have h2 : balance es (fun i r => 1 / s i r) v = balance es (fun i r => 1 / s' i r) v := by
      unfold balance
      refine sum_congr rfl fun i hi => ventry_congr (fun j _ => sum_congr rfl fun r hr => ?_) v
      beta_reduce
      rw [heq i (mem_range.1 hi) r (mem_range.1 hr)]
    have h3 := h.stationary v (mem_range.1 hv)
    have h4 := h'.stationary v (mem_range.1 hv)
    rw [gradients_sub hs]
    have : gradients es z' v - gradients es z v = 0 := by linarith
    rw [this, mul_zero]

/-! ### Distance from interior points -/

theorem interior_sum {es : List (Entry ℝ)} {N : Nat} (hs : Shape es N) {g : Nat → ℝ} {c : ℝ}
    {y : Nat → ℝ} {x : Nat → Nat → ℝ} {w z : Nat → ℝ} (h : Interior es N g c y x w) (hz : Central es N g c z) :
    rows es (fun i r => x i r * slack es c z i r + slack es c y i r / slack es c z i r) ≤
      count es + product es c y x + curvature es N (fun u => w u - y u) / 4 := by
  have h1 := identity hs (fun i r => 1 / slack es c z i r) x z y c
  have h2 : ∑ u ∈ range N, (z u - y u) * (balance es (fun i r => 1 / slack es c z i r) u - balance es x u) =
      -∑ u ∈ range N, (z u - y u) * gradients es (fun u => z u - w u) u := by
    rw [← sum_neg_distrib]
    refine sum_congr rfl fun u hu => ?_
    rw [gradients_sub hs]
    have g1 := h.equations u (mem_range.1 hu)
    have g2 := hz.stationary u (mem_range.1 hu)
    linear_combination (z u - y u) * (g2 - g1)
  have h3 := hs.costs.cross_ge (fun u => z u - y u) fun u => z u - w u
  have h4 : (fun u => z u - y u - (z u - w u)) = fun u => w u - y u := by
    funext u
    ring
  rw [h4] at h3
  rw [h2, neg_neg] at h1
  have h5 : rows es (fun i r => (1 / slack es c z i r - x i r) * (slack es c z i r - slack es c y i r)) =
      count es + product es c y x -
        rows es (fun i r => x i r * slack es c z i r + slack es c y i r / slack es c z i r) := by
    have : rows es (fun i r => (1 / slack es c z i r - x i r) * (slack es c z i r - slack es c y i r)) +
        rows es (fun i r => x i r * slack es c z i r + slack es c y i r / slack es c z i r) =
        rows es (fun _ _ => 1) + rows es (fun i r => x i r * slack es c y i r) := by
      rw [← rows_add, ← rows_add]
      refine rows_congr fun i hi r hr => ?_
      have := hz.interior i hi r hr
      field_simp
      ring
    have hc : rows es (fun _ _ => 1) = count es := by simp [rows, count]
    have hp : rows es (fun i r => x i r * slack es c y i r) = product es c y x := rfl
    linarith
  linarith

/-- The distance of scaling points from the central point. -/
theorem interior_distance {es : List (Entry ℝ)} {N : Nat} (hs : Shape es N) {g : Nat → ℝ} {c : ℝ}
    {y : Nat → ℝ} {x : Nat → Nat → ℝ} {w z : Nat → ℝ} (h : Interior es N g c y x w) (hz : Central es N g c z)
    (hw : ∀ i < es.length, ∀ r < (con (nth es i).item).n, 0 < weight (nth es i).item r) {μ ν : ℝ} (hμ : 0 < μ)
    (hν : 0 < ν) (h1 : ∀ i < es.length, ∀ r < (con (nth es i).item).n, μ * weight (nth es i).item r ≤ x i r)
    (h2 : ∀ i < es.length, ∀ r < (con (nth es i).item).n, ν ≤ weight (nth es i).item r * slack es c y i r) :
    distance es c z ≤ (count es + product es c y x + curvature es N (fun u => w u - y u) / 4) * (1 / μ + 1 / ν) -
      2 * count es := by
  have h3 : distance es c z = rows es (fun i r => weight (nth es i).item r * slack es c z i r +
      1 / (weight (nth es i).item r * slack es c z i r)) - 2 * count es := by
    have hc : rows es (fun _ _ => 2 * 1) = 2 * count es := by
      rw [rows_mul]
      simp [rows, count]
    have : distance es c z + rows es (fun _ _ => 2 * 1) = rows es (fun i r => weight (nth es i).item r * slack es c z i r +
      1 / (weight (nth es i).item r * slack es c z i r)) := by
      change rows es _ + _ = _
      rw [← rows_add]
      exact rows_congr fun i _ r _ => by ring
    rw [← this, hc]
    ring
  rw [h3]
  refine sub_le_sub_right (le_trans ?_ (mul_le_mul_of_nonneg_right (interior_sum hs h hz) (by positivity))) _
  rw [mul_comm, ← rows_mul]
  refine rows_le fun i hi r hr => ?_
  have g1 := hz.interior i hi r hr
  have g2 := hw i hi r hr
  have g3 := h.primal i hi r hr
  have g4 := h.dual i hi r hr
  have f1 : weight (nth es i).item r * slack es c z i r ≤ 1 / μ * (x i r * slack es c z i r) := by
    rw [one_div, ← div_eq_inv_mul, le_div_iff₀ hμ]
    nlinarith [mul_le_mul_of_nonneg_right (h1 i hi r hr) g1.le]
  have f2 : 1 / (weight (nth es i).item r * slack es c z i r) ≤ 1 / ν * (slack es c y i r / slack es c z i r) := by
    rw [one_div ν, ← div_eq_inv_mul, div_div, div_le_div_iff₀ (by positivity) (by positivity)]
    nlinarith [mul_le_mul_of_nonneg_right (h2 i hi r hr) g1.le]
  have f3 : 0 ≤ 1 / μ * (slack es c y i r / slack es c z i r) := by positivity
  have f4 : 0 ≤ 1 / ν * (x i r * slack es c z i r) := by positivity
  nlinarith

/-- Interior points of the program scaled by the barrier parameter. -/
theorem interior_scale {es : List (Entry ℝ)} {N : Nat} (hs : Shape es N) {b : Nat → ℝ} {y : Nat → ℝ}
    {x : Nat → Nat → ℝ} {w : Nat → ℝ} (h : Interior es N b 1 y x w) {β γ : ℝ} (hβ : 0 < β) (hγ : 0 < γ) :
    Interior es N (fun u => β * b u) γ (fun u => γ * y u) (fun i r => β * x i r) (fun u => β * w u) ∧
    (∀ i r, slack es γ (fun u => γ * y u) i r = γ * slack es 1 y i r) ∧
    product es γ (fun u => γ * y u) (fun i r => β * x i r) = β * γ * product es 1 y x := by
  have h1 : ∀ i r, slack es γ (fun u => γ * y u) i r = γ * slack es 1 y i r := by
    intro i r
    unfold slack
    rw [mul_sub, mul_sum, one_mul]
    congr 1
    exact sum_congr rfl fun j _ => by ring
  refine ⟨⟨fun i hi r hr => ?_, fun i hi r hr => mul_pos hβ (h.dual i hi r hr), fun u hu => ?_⟩, h1, ?_⟩
  · rw [h1]
    exact mul_pos hγ (h.primal i hi r hr)
  · rw [balance_mul, gradients_mul hs, ← mul_add, h.equations u hu]
  · unfold product
    simp only [h1, mul_sum]
    exact sum_congr rfl fun i _ => sum_congr rfl fun r _ => by ring

end Verif.Centering
