import Verif.Lemmas.SearchPhases

/-!
# The start of a solve (C90, C91)
-/

namespace Verif.Whole

open Finset LineSearch Centering Centering.Spec Whole.Spec Iteration.Spec
open Verif.Dual

/-! ### Workspaces do not matter -/

theorem polyhedral_start {P : Program ℝ} (h : Polyhedral P.es) : Polyhedral (startEs P) := by
  intro e he
  obtain ⟨e', he', rfl⟩ := List.mem_map.1 he
  rcases h e' he' with ⟨o, w, ho⟩ | ⟨n, Q, ho⟩
  · exact Or.inl ⟨o, Linear.setIdentity w, by simp only [ho, setIdentity]⟩
  · exact Or.inr ⟨n, Q, by simp only [ho, setIdentity]⟩

theorem nth_start (P : Program ℝ) {i : Nat} (hi : i < P.es.length) :
    nth (startEs P) i = ⟨(nth P.es i).vars, setIdentity (nth P.es i).item⟩ := by
  refine nth_of ?_
  rw [startEs, identity, List.getElem?_map, nth_get hi]
  rfl

theorem alike_start {P : Program ℝ} (h : Polyhedral P.es) : Alike P.es (startEs P) := by
  refine ⟨by simp [startEs, identity], fun i hi => by rw [nth_start P hi], fun i hi => ?_, fun i hi y => ?_⟩
  · rw [nth_start P hi]
    rcases h _ (nth_mem hi) with ⟨o, w, ho⟩ | ⟨n, Q, ho⟩ <;> rw [ho] <;> rfl
  · rw [nth_start P hi]
    rcases h _ (nth_mem hi) with ⟨o, w, ho⟩ | ⟨n, Q, ho⟩ <;> rw [ho] <;> rfl

theorem weight_start {P : Program ℝ} (h : Polyhedral P.es) {i : Nat} (hi : i < P.es.length) {r : Nat}
    (hr : r < (con (nth P.es i).item).n) : weight (nth (startEs P) i).item r = 1 := by
  rw [nth_start P hi]
  rcases h _ (nth_mem hi) with ⟨o, w, ho⟩ | ⟨n, Q, ho⟩
  · rw [ho]
    rfl
  · rw [ho] at hr
    exact absurd hr (Nat.not_lt_zero r)

theorem alike_interior {es es' : List (Entry ℝ)} (h : Alike es es') {N : Nat} {g : Nat → ℝ} {c : ℝ} {y : Nat → ℝ}
    {x : Nat → Nat → ℝ} {w : Nat → ℝ} (hI : Interior es N g c y x w) : Interior es' N g c y x w := by
  refine ⟨fun i hi r hr => ?_, fun i hi r hr => ?_, fun u hu => ?_⟩
  · rw [h.length] at hi
    rw [h.con i hi] at hr
    rw [h.slack c y hi]
    exact hI.primal i hi r hr
  · rw [h.length] at hi
    rw [h.con i hi] at hr
    exact hI.dual i hi r hr
  · rw [h.gradients, h.balance]
    exact hI.equations u hu

theorem alike_product {es es' : List (Entry ℝ)} (h : Alike es es') (c : ℝ) (y : Nat → ℝ) (x : Nat → Nat → ℝ) :
    product es' c y x = product es c y x := by
  unfold product
  rw [h.length]
  refine sum_congr rfl fun i hi => ?_
  rw [h.con i (mem_range.1 hi)]
  exact sum_congr rfl fun r _ => by rw [h.slack c y (mem_range.1 hi)]

theorem alike_curvature {es es' : List (Entry ℝ)} (h : Alike es es') (N : Nat) (y : Nat → ℝ) :
    curvature es' N y = curvature es N y := by
  unfold curvature
  exact sum_congr rfl fun u _ => by rw [h.gradients]

theorem curvature_mul {es : List (Entry ℝ)} {N : Nat} (hs : Shape es N) (a : ℝ) (y : Nat → ℝ) :
    curvature es N (fun u => a * y u) = a ^ 2 * curvature es N y := by
  unfold curvature
  rw [mul_sum]
  refine sum_congr rfl fun u _ => ?_
  rw [gradients_mul hs]
  ring

/-- The distance of the start from the central points, uniformly. -/
theorem start_distance {P : Program ℝ} (hp : Polyhedral P.es) {p : Iteration.Setup ℝ} {duals : List (List Nat)}
    {x₀ : Iteration.State ℝ} (hx₀ : x₀.es = startEs P) (hr : Ready p duals x₀) {y : Nat → ℝ} {x : Nat → Nat → ℝ}
    {w : Nat → ℝ} (hI : Interior P.es p.N p.b 1 y x w) {kMin K μ ν : ℝ} (hmin : 0 < kMin) (hμ : 0 < μ) (hν : 0 < ν)
    (hx : ∀ i < P.es.length, ∀ r < (con (nth P.es i).item).n, μ ≤ kMin * x i r)
    (hy : ∀ i < P.es.length, ∀ r < (con (nth P.es i).item).n, ν ≤ kMin * slack P.es 1 y i r) {k : ℝ} (hk : kMin ≤ k)
    (hK : k ≤ K) : ∃ z, Central x₀.es p.N (fun u => k * p.b u) k z ∧ 0 ≤ distance x₀.es k z ∧
      distance x₀.es k z ≤ (count P.es + K ^ 2 * (product P.es 1 y x + curvature P.es p.N (fun u => w u - y u) / 4)) *
        (1 / μ + 1 / ν) - 2 * count P.es := by
  have ha := alike_start hp
  rw [← hx₀] at ha
  have hp₀ : Polyhedral x₀.es := hx₀ ▸ polyhedral_start hp
  have hs := shape_of hr hp₀
  have hI₀ := alike_interior ha hI
  have hk0 : 0 < k := hmin.trans_le hk
  obtain ⟨h1, h2, h3⟩ := interior_scale hs hI₀ hk0 hk0
  obtain ⟨z, hz⟩ := central_exists hs hr.determined h1
  have hw := weight_pos hr.good hp₀
  have hd := interior_distance hs h1 hz hw hμ hν (fun i hi r hr' => by
      rw [ha.length] at hi
      rw [ha.con i hi] at hr'
      rw [hx₀, weight_start hp hi hr', mul_one]
      exact (hx i hi r hr').trans (mul_le_mul_of_nonneg_right hk (hI.dual i hi r hr').le)) fun i hi r hr' => by
    rw [ha.length] at hi
    rw [ha.con i hi] at hr'
    rw [h2, ha.slack 1 y hi, hx₀, weight_start hp hi hr', one_mul]
    exact (hy i hi r hr').trans (mul_le_mul_of_nonneg_right hk (hI.primal i hi r hr').le)
  rw [h3] at hd
  have h4 : (fun u => k * w u - k * y u) = fun u => k * (w u - y u) := by
    funext u
    ring
  rw [h4, curvature_mul hs, alike_count ha, alike_product ha, alike_curvature ha] at hd
  refine ⟨z, hz, distance_nonneg hw hz.interior, hd.trans (sub_le_sub_right (mul_le_mul_of_nonneg_right ?_ (by positivity)) _)⟩
  have h5 : 0 ≤ product P.es 1 y x := sum_nonneg fun i hi => sum_nonneg fun r hr' =>
    mul_nonneg (hI.dual i (mem_range.1 hi) r (mem_range.1 hr')).le (hI.primal i (mem_range.1 hi) r (mem_range.1 hr')).le
  have h6 : 0 ≤ curvature P.es p.N fun u => w u - y u := by
    rw [← alike_curvature ha]
    exact curvature_nonneg hs _
  have h7 : k ^ 2 ≤ K ^ 2 := pow_le_pow_left₀ hk0.le hK 2
  nlinarith [mul_le_mul_of_nonneg_right h7 h5, mul_le_mul_of_nonneg_right h7 h6]

/-- Finitely many positive numbers have a positive lower bound. -/
theorem lower_bound (len : Nat) (n : Nat → Nat) (f : Nat → Nat → ℝ) (h : ∀ i < len, ∀ r < n i, 0 < f i r) :
    ∃ μ, 0 < μ ∧ ∀ i < len, ∀ r < n i, μ ≤ f i r := by
  have hpos : ∀ i ∈ range len, ∀ r ∈ range (n i), 0 < 1 / f i r := fun i hi r hr =>
    one_div_pos.2 (h i (mem_range.1 hi) r (mem_range.1 hr))
  have hsum : 0 ≤ ∑ i ∈ range len, ∑ r ∈ range (n i), 1 / f i r :=
    sum_nonneg fun i hi => sum_nonneg fun r hr => (hpos i hi r hr).le
  refine ⟨1 / (1 + ∑ i ∈ range len, ∑ r ∈ range (n i), 1 / f i r), by positivity, fun i hi r hr => ?_⟩
  have h1 : 1 / f i r ≤ 1 + ∑ i ∈ range len, ∑ r ∈ range (n i), 1 / f i r := by
    have h2 : ∑ r ∈ range (n i), 1 / f i r ≤ ∑ i ∈ range len, ∑ r ∈ range (n i), 1 / f i r :=
      single_le_sum (f := fun i => ∑ r ∈ range (n i), 1 / f i r)
        (fun j hj => sum_nonneg fun r hr => (hpos j hj r hr).le) (mem_range.2 hi)
    have h3 : 1 / f i r ≤ ∑ r ∈ range (n i), 1 / f i r :=
      single_le_sum (f := fun r => 1 / f i r) (fun j hj => (hpos i (mem_range.2 hi) j hj).le) (mem_range.2 hr)
    linarith
  have h4 := h i hi r hr
  rw [div_le_iff₀ h4] at h1
  rw [div_le_iff₀ (by linarith)]
  linarith

end Verif.Whole
