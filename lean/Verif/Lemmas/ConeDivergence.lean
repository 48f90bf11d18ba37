import Verif.Lemmas.ConeWeighted
import Verif.Lemmas.DivergenceGrow

/-!
# The divergence of a program with second-order and quadratic cones (C94)
-/

namespace Verif.ConeCentering

open Finset Verif.Dual Iteration.Spec Whole.Spec Spec Spin
open Spin.Spec (IsForm Interior Same tr quad smul add)
open Soc (El)
open Centering.Spec (gradients)
open Whole (nth_mem nth_of nth_get NoCosts factor_solves Search divergenceMu itemSlack slackEntries entries_nth sum_list)

theorem gradients_none {es : List (Entry ℝ)} (hp : VectorCones es) (hc : NoCosts es) (y : Nat → ℝ) (u : Nat) :
    gradients es y u = 0 := by
  unfold gradients
  refine sum_eq_zero fun i hi => ?_
  have hi := mem_range.1 hi
  rcases hp _ (nth_mem hi) with ⟨o, w, ho⟩ | ⟨o, w, ho⟩ | ⟨o, w, ho⟩ | ⟨n, Q, ho⟩
  · rw [ho]
    simp [Centering.Spec.gradient, Sup.Spec.ventry]
  · rw [ho]
    simp [Centering.Spec.gradient, Sup.Spec.ventry]
  · rw [ho]
    simp [Centering.Spec.gradient, Sup.Spec.ventry]
  · exact absurd ho (hc _ (nth_mem hi) _ _)

theorem image_sub {es : List (Entry ℝ)} {N : Nat} (hs : Shape es N) {x a b : Nat → Nat → El ℝ}
    (h : ∀ i < es.length, ∀ r z, tr (form (nth es i).item) (x i r) z =
      tr (form (nth es i).item) (a i r) z - tr (form (nth es i).item) (b i r) z) {u : Nat} (hu : u < N) :
    image es x u = image es a u - image es b u := by
  have h1 := image_unit hs x hu
  have h2 := image_unit hs a hu
  have h3 := image_unit hs b hu
  have h4 : (total es fun i r => half (nth es i).item * tr (form (nth es i).item) (x i r) (slack es 0 (unit u) i r)) =
      (total es fun i r => half (nth es i).item * tr (form (nth es i).item) (a i r) (slack es 0 (unit u) i r)) +
        -1 * total es fun i r => half (nth es i).item * tr (form (nth es i).item) (b i r) (slack es 0 (unit u) i r) := by
    rw [← total_mul, ← total_add]
    refine total_congr fun i hi r _ => ?_
    rw [h i hi r]
    ring
  linarith

/-- The slack of the point of the divergence, transformed by the scaling point. -/
noncomputable def scaledSlack (es : List (Entry ℝ)) (cs : ℝ) (y : Nat → ℝ) (i r : Nat) : El ℝ :=
  quad (form (nth es i).item) (point (nth es i).item r) (slack es cs y i r)

/-- The point of the divergence. -/
theorem divergence_point {v : Env ℝ} (hv : ∀ x, 0 ≤ x → SolveLoop.Spec.SqrtAt v.sqrt x) {p : Iteration.Setup ℝ}
    {duals : List (List Nat)} {x : Iteration.State ℝ} (hr : Ready p duals x) {f : Iteration.Factored ℝ} {solver : Sup.Solver ℝ}
    (hf : Iteration.factorize v p x = .ok f) (hsol : f.solver = some solver) :
    ∃ y, solver.solveInPlace p.qr p.N (fun u => f.r.AQc u * p.cs - p.b u * p.bs) = .ok y ∧
      (VectorCones x.es → NoCosts x.es → ∀ u < p.N, image x.es (scaledSlack x.es p.cs y) u = p.bs * p.b u) := by
  obtain ⟨f', solver', s, hf', hsol', h1, h2, h3, h4⟩ := factor_solves hv hr
  rw [hf, Outcome.ok.injEq] at hf'
  subst hf'
  rw [hsol, Option.some.injEq] at hsol'
  subst hsol'
  obtain ⟨y, h5, h6⟩ := h4 fun u => f.r.AQc u * p.cs - p.b u * p.bs
  obtain ⟨y0, -, h7⟩ := h4 fun u => -2 * f.r.AW u
  refine ⟨y, h5, fun hp hc u hu => ?_⟩
  obtain ⟨hs, hw⟩ := shape_of hr hp
  have hg : ∀ e ∈ x.es, e.vars.Nodup ∧ ∀ v ∈ e.vars, v < p.N := fun e he => ⟨(hr.good e he).1, (hr.good e he).2.1⟩
  have e1 := residual_cells hv hs hw h1 (0 * p.cs) y0 u
  rw [Gap.system_res (bs := p.bs) (b := p.b) hg (by rw [h7 u hu, h2 u]; ring), gradients_none hp hc] at e1
  have e2 := residual_cells hv hs hw h1 (1 * p.cs) (fun u => y u + 1 * y0 u) u
  rw [Gap.system_res (bs := -p.bs) (b := p.b) hg (by
    simp only [mul_add, sum_add_distrib, one_mul]
    rw [h6 u hu, h7 u hu, h2 u, h3 u]
    ring), gradients_none hp hc] at e2
  rw [add_zero] at e1 e2
  rw [image_sub hs (x := scaledSlack x.es p.cs y) (a := fun i r => dualPoint (form (nth x.es i).item) (point (nth x.es i).item r)
    (slack x.es (0 * p.cs) y0 i r)) (b := fun i r => dualPoint (form (nth x.es i).item) (point (nth x.es i).item r)
    (slack x.es (1 * p.cs) (fun u => y u + 1 * y0 u) i r)) (fun i hi r z => ?_) hu, e1, e2]
  · ring
  · have hB := (hs.kind i hi).form
    rw [slack_add]
    unfold scaledSlack dualPoint
    simp only [tr_add hB, tr_smul hB, tr_quad hB, one_mul, zero_mul]
    ring

/-- The Newton direction for `k` is as long as the differences of `k` times the eigenvalues and one. -/
theorem direction_length {es : List (Entry ℝ)} {N : Nat} (hs : Shape es N) (hg : ∀ y u, gradients es y u = 0) {b : Nat → ℝ}
    {bs cs k : ℝ} {yd y : Nat → ℝ} (hd : ∀ u < N, image es (scaledSlack es cs yd) u = bs * b u)
    (h : ∀ u < N, image es (fun i r => dualPoint (form (nth es i).item) (point (nth es i).item r)
      (slack es (k * cs) y i r)) u + gradients es y u = k * bs * b u) :
    (total es fun i r => half (nth es i).item * gapSq (form (nth es i).item) (point (nth es i).item r)
        (slack es (k * cs) y i r) 1) =
      total es fun i r => half (nth es i).item * gapSq (form (nth es i).item) (point (nth es i).item r)
        (slack es cs yd i r) k := by
  have h1 := cross_eq hs (fun i r => dualPoint (form (nth es i).item) (point (nth es i).item r)
      (slack es (k * cs) y i r)) (fun i r => smul k (scaledSlack es cs yd i r)) y (fun u => k * yd u) (k * cs)
  rw [sum_eq_zero (fun u hu => by
    have hu := mem_range.1 hu
    rw [image_smul hs _ _ hu, hd u hu]
    have := h u hu
    rw [hg, add_zero] at this
    rw [this]
    ring), neg_zero] at h1
  rw [eq_comm, ← sub_eq_zero, ← h1, sub_eq_add_neg, ← neg_one_mul, ← total_mul, ← total_add]
  refine total_congr fun i hi r _ => ?_
  have hB := (hs.kind i hi).form
  rw [slack_smul]
  have e1 : ∀ a b : El ℝ, tr (form (nth es i).item) a (smul k b) = k * tr (form (nth es i).item) a b := fun a b => by
    rw [tr_comm hB, tr_smul hB, tr_comm hB]
  have e2 : tr (form (nth es i).item) (quad (form (nth es i).item) (point (nth es i).item r) (slack es (k * cs) y i r))
      (slack es cs yd i r) = tr (form (nth es i).item) (quad (form (nth es i).item) (point (nth es i).item r)
      (slack es cs yd i r)) (slack es (k * cs) y i r) := by
    rw [tr_quad hB, tr_comm hB]
  unfold cross gapSq dualPoint scaledSlack
  simp only [e1, tr_add hB, tr_smul hB, e2]
  ring

/-- The distance from the central point for `k`, if `k` times the eigenvalues are at least `l`. -/
theorem distance_le {es : List (Entry ℝ)} {N : Nat} (hs : Shape es N) (hg : ∀ y u, gradients es y u = 0) {b : Nat → ℝ}
    {bs cs k l : ℝ} (hk : 0 < k) {yd z : Nat → ℝ}
    (hw : ∀ i < es.length, ∀ r < cells (nth es i).item, Interior (form (nth es i).item) (point (nth es i).item r))
    (hd : ∀ u < N, image es (scaledSlack es cs yd) u = bs * b u)
    (hz : Central es N (fun u => k * bs * b u) (k * cs) z)
    (hl : ∀ i < es.length, ∀ r < cells (nth es i).item, ∃ a b, Eigs (form (nth es i).item) (point (nth es i).item r)
      (slack es cs yd i r) a b ∧ l ≤ k * a ∧ l ≤ k * b) :
    l * distance es (k * cs) z ≤ total es fun i r => half (nth es i).item * gapSq (form (nth es i).item)
      (point (nth es i).item r) (slack es cs yd i r) k := by
  have h1 := cross_eq hs (fun i r => smul k (scaledSlack es cs yd i r))
    (fun i r => inverse (form (nth es i).item) (slack es (k * cs) z i r)) (fun u => k * yd u) z (k * cs)
  rw [sum_eq_zero (fun u hu => by
    have hu := mem_range.1 hu
    rw [image_smul hs _ _ hu, hd u hu]
    have := hz.stationary u hu
    rw [hg, add_zero] at this
    rw [this]
    ring), neg_zero] at h1
  have e0 : l * distance es (k * cs) z = total es fun i r => l * separation (nth es i).item (point (nth es i).item r)
      (slack es (k * cs) z i r) := (total_mul es l _).symm
  rw [e0]
  refine le_trans (le_of_eq (add_zero _).symm) ?_
  rw [← h1, ← total_add]
  refine total_le fun i hi r hr => ?_
  have hB := (hs.kind i hi).form
  have hq := hz.interior i hi r hr
  obtain ⟨a, b, h2, h3, h4⟩ := hl i hi r hr
  have h5 := sep_le hB (hw i hi r hr) hq (below_of_eigs hB (hw i hi r hr) h2 (l := l / k)
    (by rw [div_le_iff₀ hk]; linarith) (by rw [div_le_iff₀ hk]; linarith))
  have h6 := tr_inverse_self hB hq
  rw [slack_smul, separation_eq]
  have e1 : ∀ a b : El ℝ, tr (form (nth es i).item) a (smul k b) = k * tr (form (nth es i).item) a b := fun a b => by
    rw [tr_comm hB, tr_smul hB, tr_comm hB]
  unfold cross gapSq scaledSlack
  simp only [e1, tr_smul hB, h6]
  have h7 := mul_le_mul_of_nonneg_left h5 (mul_pos (half_pos (nth es i).item) hk).le
  have e2 : half (nth es i).item * k * (l / k * sep (form (nth es i).item) (point (nth es i).item r)
      (slack es (k * cs) z i r)) = half (nth es i).item * (l * sep (form (nth es i).item) (point (nth es i).item r)
      (slack es (k * cs) z i r)) := by
    field_simp
  rw [e2] at h7
  linarith

/-! ### The data of the divergence -/

/-- The eigenvalues of a constraint. -/
structure ItemData (it : Item ℝ) (len : Nat) (c : ℝ) (y : Nat → ℝ) (L : List ℝ) : Prop where
  sum : ∀ κ, (L.map fun a => (κ * a - 1) ^ 2).sum =
    ∑ r ∈ range (cells it), half it * gapSq (form it) (point it r) (slackAt it len c y r) κ
  mem : ∀ a ∈ L, ∃ r < cells it, ∃ b, Eigs (form it) (point it r) (slackAt it len c y r) a b
  all : ∀ r < cells it, ∃ a ∈ L, ∃ b ∈ L, Eigs (form it) (point it r) (slackAt it len c y r) a b

theorem pair_data {it : Item ℝ} {len : Nat} {c : ℝ} {y : Nat → ℝ} (h1 : cells it = 1) (h2 : half it = 1)
    (hB : IsForm (form it)) {a b : ℝ} (h : Eigs (form it) (point it 0) (slackAt it len c y 0) a b) :
    ItemData it len c y [a, b] := by
  refine ⟨fun κ => ?_, fun x hx => ?_, fun r hr => ?_⟩
  · rw [h1, sum_range_one, h2, gapSq_eigs hB h]
    simp
  · rw [h1]
    rcases List.mem_cons.1 hx with rfl | hx
    · exact ⟨0, one_pos, b, h⟩
    · rw [List.mem_singleton.1 hx]
      exact ⟨0, one_pos, a, by rw [add_comm]; exact h.1, by rw [mul_comm]; exact h.2⟩
  · rw [h1] at hr
    obtain rfl : r = 0 := by omega
    exact ⟨a, by simp, b, by simp, h⟩

theorem item_data {v : Env ℝ} (hv : ∀ x, 0 ≤ x → SolveLoop.Spec.SqrtAt v.sqrt x) {it : Item ℝ} {len : Nat}
    (hk : Kind it len) (hc : ∀ n Q, it ≠ .cost n Q) (hw : ∀ r < cells it, Interior (form it) (point it r)) (c : ℝ)
    (y : Nat → ℝ) : ∃ L q, itemSlack v c len y it = .ok (q.frob, q.trace, some (q.lmin, q.lmax)) ∧
      Divergence.Spec.DataOf L q ∧ ItemData it len c y L := by
  rcases hk with ⟨o, w, rfl, hn, rfl⟩ | ⟨o, w, rfl, ho, rfl⟩ | ⟨o, w, rfl, ho, hB, rfl⟩ | ⟨n, Q, rfl, -⟩
  · obtain ⟨q, k1, -, k3⟩ := Linear.C35_slack o hn w le_rfl y c ⟨0, 0, 0, 0, 0⟩
    have he : ∀ r, Eigs (form (.linear o w)) (point (.linear o w) r) (slackAt (.linear o w) o.m c y r)
        (w.W r * Linear.Spec.slack o c y r) (w.W r * Linear.Spec.slack o c y r) := by
      intro r
      simp only [Eigs, form, point, slackAt, slackOf, column, affine, Linear.Spec.slack, Spin.Spec.tr, Spin.Spec.mul, det]
      constructor <;> ring
    refine ⟨_, { q with rank := o.n }, by simp only [itemSlack, k1, Outcome.bind_ok], k3, fun κ => ?_, fun a ha => ?_,
      fun r hr => ?_⟩
    · rw [List.map_map, sum_list]
      refine sum_congr rfl fun r _ => ?_
      rw [gapSq_eigs (B := form (.linear o w)) zero_form (he r)]
      simp only [Function.comp_apply, half]
      ring
    · obtain ⟨r, hr, rfl⟩ := List.mem_map.1 ha
      exact ⟨r, List.mem_range.1 hr, _, he r⟩
    · exact ⟨_, List.mem_map.2 ⟨r, List.mem_range.2 hr, rfl⟩, _, List.mem_map.2 ⟨r, List.mem_range.2 hr, rfl⟩, he r⟩
  · obtain ⟨q, z, a, b, k1, -, k3, -, k4, k5⟩ := Soc.C36_slack hv o ho w (hw 0 one_pos) y c ⟨0, 0, 0, 0, 0⟩
    exact ⟨[a, b], { q with rank := 2 }, by simp only [itemSlack, k1, Outcome.bind_ok], k5,
      pair_data (it := .soc o w) rfl rfl (Soc.dot_form o.n) (eigs_of_eig (Soc.dot_form o.n) k3 k4)⟩
  · obtain ⟨q, z, a, b, k1, -, k3, -, k4, k5⟩ := QuadCone.C36_slack hv o hB w (hw 0 one_pos) y c ⟨0, 0, 0, 0, 0⟩
    exact ⟨[a, b], { q with rank := 2 }, by simp only [itemSlack, k1, Outcome.bind_ok], k5,
      pair_data (it := .quad o w) rfl rfl hB (eigs_of_eig hB k3 k4)⟩
  · exact absurd rfl (hc n Q)

/-- The loop over the constraints. -/
theorem slackEntries_cones {v : Env ℝ} (hv : ∀ x, 0 ≤ x → SolveLoop.Spec.SqrtAt v.sqrt x) (cs : ℝ) {N : Nat} (y : Nat → ℝ) :
    ∀ (es : List (Entry ℝ)), (∀ e ∈ es, (∀ v ∈ e.vars, v < N) ∧ Kind e.item e.vars.length ∧ (∀ n Q, e.item ≠ .cost n Q) ∧
      ∀ r < cells e.item, Interior (form e.item) (point e.item r)) →
    ∃ ls : List (List ℝ × Divergence.Slack ℝ),
      List.Forall₂ (fun e t => ItemData e.item e.vars.length cs (fun j => y (e.vars.getD j 0)) t.1) es ls ∧
      (∀ t ∈ ls, Divergence.Spec.DataOf t.1 t.2) ∧ ∀ p,
        slackEntries v cs N y es p = .ok ((ls.map (·.2)).foldl Divergence.combine p) := by
  intro es
  induction es with
  | nil => exact fun _ => ⟨[], .nil, by simp, fun p => rfl⟩
  | cons e es ih =>
    intro h
    obtain ⟨h1, h2, h3, h4⟩ := h e List.mem_cons_self
    obtain ⟨ls, g1, g2, g3⟩ := ih fun e' he' => h e' (List.mem_cons_of_mem _ he')
    obtain ⟨L, q, k1, k2, k3⟩ := item_data hv h2 h3 h4 cs fun j => y (e.vars.getD j 0)
    refine ⟨(L, q) :: ls, .cons k3 g1, fun t ht => ?_, fun p => ?_⟩
    · rcases List.mem_cons.1 ht with rfl | ht
      · exact k2
      · exact g2 t ht
    · simp only [slackEntries, Whole.gather_ok' h1, k1, Outcome.bind_ok, g3, List.map_cons, List.foldl_cons]
      rfl

/-- The loop is defined, also with quadratic costs. -/
theorem slackEntries_defined {v : Env ℝ} (hv : ∀ x, 0 ≤ x → SolveLoop.Spec.SqrtAt v.sqrt x) (cs : ℝ) {N : Nat} (y : Nat → ℝ) :
    ∀ (es : List (Entry ℝ)), (∀ e ∈ es, (∀ v ∈ e.vars, v < N) ∧ Kind e.item e.vars.length ∧
      ∀ r < cells e.item, Interior (form e.item) (point e.item r)) → ∀ p, ∃ t, slackEntries v cs N y es p = .ok t := by
  intro es
  induction es with
  | nil => exact fun _ p => ⟨p, rfl⟩
  | cons e es ih =>
    intro h p
    obtain ⟨h1, h2, h3⟩ := h e List.mem_cons_self
    have ih := ih fun e' he' => h e' (List.mem_cons_of_mem _ he')
    simp only [slackEntries, Whole.gather_ok' h1, Outcome.bind_ok]
    by_cases hc : ∀ n Q, e.item ≠ .cost n Q
    · obtain ⟨L, q, k1, -⟩ := item_data hv h2 hc h3 cs fun j => y (e.vars.getD j 0)
      simp only [k1, Outcome.bind_ok]
      exact ih _
    · push Not at hc
      obtain ⟨n, Q, hc⟩ := hc
      rw [hc]
      simp only [itemSlack, Outcome.bind_ok]
      exact ih _

/-- The eigenvalues of all constraints. -/
structure Data (es : List (Entry ℝ)) (c : ℝ) (y : Nat → ℝ) (L : List ℝ) : Prop where
  sum : ∀ κ, Divergence.Spec.distSq L κ = total es fun i r => half (nth es i).item * gapSq (form (nth es i).item)
    (point (nth es i).item r) (slack es c y i r) κ
  mem : ∀ a ∈ L, ∃ i < es.length, ∃ r < cells (nth es i).item, ∃ b, Eigs (form (nth es i).item) (point (nth es i).item r)
    (slack es c y i r) a b
  all : ∀ i < es.length, ∀ r < cells (nth es i).item, ∃ a ∈ L, ∃ b ∈ L, Eigs (form (nth es i).item) (point (nth es i).item r)
    (slack es c y i r) a b

theorem data_of {es : List (Entry ℝ)} {c : ℝ} {y : Nat → ℝ} {ls : List (List ℝ × Divergence.Slack ℝ)}
    (h : List.Forall₂ (fun e t => ItemData e.item e.vars.length c (fun j => y (e.vars.getD j 0)) t.1) es ls) :
    Data es c y (ls.map (·.1)).flatten := by
  have h1 : ∀ κ, Divergence.Spec.distSq (ls.map (·.1)).flatten κ = (es.map fun e => ∑ r ∈ range (cells e.item),
      half e.item * gapSq (form e.item) (point e.item r)
        (slackAt e.item e.vars.length c (fun j => y (e.vars.getD j 0)) r) κ).sum := by
    intro κ
    unfold Divergence.Spec.distSq
    induction h with
    | nil => simp
    | cons h h' ih =>
      rw [List.map_cons, List.flatten_cons, List.map_append, List.sum_append, ih, List.map_cons, List.sum_cons, h.sum κ]
  have h2 : ∀ a ∈ (ls.map (·.1)).flatten, ∃ e ∈ es, ∃ r < cells e.item, ∃ b, Eigs (form e.item) (point e.item r)
      (slackAt e.item e.vars.length c (fun j => y (e.vars.getD j 0)) r) a b := by
    clear h1
    induction h with
    | nil => simp
    | cons h h' ih =>
      intro a ha
      rw [List.map_cons, List.flatten_cons] at ha
      rcases List.mem_append.1 ha with ha | ha
      · exact ⟨_, List.mem_cons_self, h.mem a ha⟩
      · obtain ⟨e, he, k⟩ := ih a ha
        exact ⟨e, List.mem_cons_of_mem _ he, k⟩
  have h3 : ∀ e ∈ es, ∀ r < cells e.item, ∃ a ∈ (ls.map (·.1)).flatten, ∃ b ∈ (ls.map (·.1)).flatten,
      Eigs (form e.item) (point e.item r) (slackAt e.item e.vars.length c (fun j => y (e.vars.getD j 0)) r) a b := by
    clear h1 h2
    induction h with
    | nil => simp
    | cons h h' ih =>
      intro e he r hr
      rw [List.map_cons, List.flatten_cons]
      rcases List.mem_cons.1 he with rfl | he
      · obtain ⟨a, ha, b, hb, k⟩ := h.all r hr
        exact ⟨a, List.mem_append_left _ ha, b, List.mem_append_left _ hb, k⟩
      · obtain ⟨a, ha, b, hb, k⟩ := ih e he r hr
        exact ⟨a, List.mem_append_right _ ha, b, List.mem_append_right _ hb, k⟩
  refine ⟨fun κ => ?_, fun a ha => ?_, fun i hi r hr => h3 _ (nth_mem hi) r hr⟩
  · rw [h1]
    conv_lhs => rw [entries_nth es, List.map_map, sum_list]
    rfl
  · obtain ⟨e, he, r, hr, k⟩ := h2 a ha
    obtain ⟨i, hi⟩ := List.getElem?_of_mem he
    have := nth_of hi
    subst this
    exact ⟨i, (List.getElem?_eq_some_iff.1 hi).1, r, hr, k⟩

theorem data_length {es : List (Entry ℝ)} {c : ℝ} {y : Nat → ℝ} {L : List ℝ} (h : Data es c y L) :
    (L.length : ℝ) = orders es := by
  have h1 := h.sum 0
  unfold Divergence.Spec.distSq at h1
  simp only [zero_mul, zero_sub, neg_sq, one_pow, List.map_const', List.sum_replicate, nsmul_eq_mul, mul_one] at h1
  rw [h1]
  refine sum_congr rfl fun i _ => sum_congr rfl fun r _ => ?_
  rw [order_eq]
  unfold gapSq
  ring

theorem rank_orders {es : List (Entry ℝ)} (hp : VectorCones es) : (rank es : ℝ) = orders es := by
  rw [Gap.rank_eq]
  conv_lhs => rw [entries_nth es, List.map_map, sum_list]
  unfold orders
  refine sum_congr rfl fun i hi => ?_
  rcases hp _ (nth_mem (mem_range.1 hi)) with ⟨o, w, ho⟩ | ⟨o, w, ho⟩ | ⟨o, w, ho⟩ | ⟨n, Q, ho⟩ <;>
    simp [ho, Item.rank, cells, order]

theorem entries_cones {p : Iteration.Setup ℝ} {duals : List (List Nat)} {x : Iteration.State ℝ} (hr : Ready p duals x)
    (hp : VectorCones x.es) (e : Entry ℝ) (he : e ∈ x.es) : (∀ v ∈ e.vars, v < p.N) ∧ Kind e.item e.vars.length ∧
      ∀ r < cells e.item, Interior (form e.item) (point e.item r) := by
  obtain ⟨hs, hw⟩ := shape_of hr hp
  obtain ⟨i, hi⟩ := List.getElem?_of_mem he
  have hi' := (List.getElem?_eq_some_iff.1 hi).1
  have := nth_of hi
  subst this
  exact ⟨(hs.vars _ he).2, hs.kind i hi', hw i hi'⟩

/-- The divergence is defined. -/
theorem divergenceMu_ok {v : Env ℝ} (hv : ∀ x, 0 ≤ x → SolveLoop.Spec.SqrtAt v.sqrt x) {p : Iteration.Setup ℝ}
    {duals : List (List Nat)} {x : Iteration.State ℝ} (hr : Ready p duals x) (hp : VectorCones x.es) {S : Search ℝ}
    {f : Iteration.Factored ℝ} {solver : Sup.Solver ℝ} (hf : Iteration.factorize v p x = .ok f)
    (hsol : f.solver = some solver) : ∃ d, divergenceMu v S p x.es f.r solver = .ok d := by
  obtain ⟨y, h1, -⟩ := divergence_point hv hr hf hsol
  obtain ⟨t, h2⟩ := slackEntries_defined hv p.cs y x.es (entries_cones hr hp) ⟨0, 0, 30000, -30000, rank x.es⟩
  exact ⟨Divergence.muFromDivergence v.sqrt S.factor t, by simp only [divergenceMu, h1, h2, Outcome.bind_ok]⟩

/-- The data of the divergence. -/
theorem divergence_data {v : Env ℝ} (hv : ∀ x, 0 ≤ x → SolveLoop.Spec.SqrtAt v.sqrt x) {p : Iteration.Setup ℝ}
    {duals : List (List Nat)} {x : Iteration.State ℝ} (hr : Ready p duals x) (hp : VectorCones x.es) (hc : NoCosts x.es)
    {S : Search ℝ} {f : Iteration.Factored ℝ} {solver : Sup.Solver ℝ}
    (hf : Iteration.factorize v p x = .ok f) (hsol : f.solver = some solver) :
    ∃ y t L, solver.solveInPlace p.qr p.N (fun u => f.r.AQc u * p.cs - p.b u * p.bs) = .ok y ∧
      (∀ u < p.N, image x.es (scaledSlack x.es p.cs y) u = p.bs * p.b u) ∧
      slackEntries v p.cs p.N y x.es ⟨0, 0, 30000, -30000, rank x.es⟩ = .ok t ∧
      divergenceMu v S p x.es f.r solver = .ok (Divergence.muFromDivergence v.sqrt S.factor t) ∧
      Data x.es p.cs y L ∧ (∀ k, k * k * t.frob - 2 * k * t.trace + t.rank = Divergence.Spec.distSq L k) ∧
      (∀ a ∈ L, t.lmin ≤ a ∧ a ≤ t.lmax) ∧
      (1 ≤ orders x.es → (∀ a ∈ L, |a| ≤ 30000) → Divergence.Spec.DataOf L t) := by
  obtain ⟨y, h1, h2⟩ := divergence_point hv hr hf hsol
  obtain ⟨ls, g1, g2, g3⟩ := slackEntries_cones hv p.cs y x.es fun e he => by
    obtain ⟨a, b, c⟩ := entries_cones hr hp e he
    exact ⟨a, b, hc e he, c⟩
  have hd := data_of g1
  have hlen := data_length hd
  obtain ⟨k1, k2, -, -, k5⟩ := Whole.foldl_sums ls g2 ⟨0, 0, 30000, -30000, rank x.es⟩
  have k3 := Divergence.foldl_rank (ls.map (·.2)) (⟨0, 0, 30000, -30000, rank x.es⟩ : Divergence.Slack ℝ)
  refine ⟨y, _, _, h1, h2 hp hc, g3 _, by simp only [divergenceMu, h1, g3, Outcome.bind_ok], hd, fun k => ?_, k5,
    fun hn hb => ?_⟩
  · rw [k1, k2, k3]
    simp only [zero_add]
    rw [rank_orders hp, ← hlen]
    unfold Divergence.Spec.distSq
    generalize (ls.map (·.1)).flatten = L
    induction L with
    | nil => simp
    | cons a L ih =>
      simp only [List.map_cons, List.sum_cons, List.length_cons, Nat.cast_succ] at ih ⊢
      rw [← ih]
      ring
  · have hne : ls ≠ [] := by
      rintro rfl
      simp only [List.map_nil, List.flatten_nil, List.length_nil, Nat.cast_zero] at hlen
      linarith
    have h3 := Divergence.C30_aggregate_partial ls hne g2 fun t ht z hz =>
      hb z (List.mem_flatten.2 ⟨t.1, List.mem_map_of_mem ht, hz⟩)
    rw [hlen, ← rank_orders hp] at h3
    exact h3

/-- Near the central path the divergence increases the barrier parameter `k` by a factor, and the directions up to the
chosen parameter are short. -/
theorem divergence_grow {v : Env ℝ} (hv : ∀ x, 0 ≤ x → SolveLoop.Spec.SqrtAt v.sqrt x) (hexp : v.exp = Real.exp)
    {p : Iteration.Setup ℝ} {duals : List (List Nat)} {x x' : Iteration.State ℝ} (hr : Ready p duals x)
    (hp : VectorCones x.es) (hc : NoCosts x.es) (hn : 1 ≤ orders x.es) {S : Search ℝ} (hS : 0 < S.factor)
    (hB : S.factor * orders x.es ≤ 1 / 32) {τ : ℝ} (hτ : 0 ≤ τ) (hτS : 16 * τ ^ 2 ≤ S.factor)
    {f : Iteration.Factored ℝ} {solver : Sup.Solver ℝ}
    (hf : Iteration.factorize v p x = .ok f) (hsol : f.solver = some solver) {k : ℝ} (hk : 1 / 24000 ≤ k) {st : Iteration.Step ℝ}
    (h : Iteration.iterate v p k x = .ok (some (st, x'))) (hst : st.normsqrd ≤ 2 * (S.factor * orders x.es) ^ 2) :
    ∃ d, divergenceMu v S p x.es f.r solver = .ok d ∧ (1 + τ) * k ≤ d ∧
      ∀ k', k ≤ k' → k' ≤ d → ∀ st' x', Iteration.iterate v p k' x = .ok (some (st', x')) →
        st'.normsqrd ≤ S.factor * orders x.es := by
  have he : ∀ x, 0 < v.exp x := fun x => hexp ▸ Real.exp_pos x
  have hk0 : 0 < k := lt_of_lt_of_le (by norm_num) hk
  obtain ⟨y, t, L, -, h1, -, g2, hD, -, -, h2⟩ := divergence_data (S := S) hv hr hp hc hf hsol
  have hlen := data_length hD
  have key : ∀ κ st' x', Iteration.iterate v p κ x = .ok (some (st', x')) → st'.normsqrd = Divergence.Spec.distSq L κ := by
    intro κ st' x' hit
    obtain ⟨q, g1⟩ := (iterated hv hexp hr hp hit (Centering.unregularized hv he hr hit)).1
    rw [g1.sum, hD.sum, ← direction_length g1.shape (fun y u => gradients_none hp hc y u) h1 g1.newton]
    refine total_congr fun i hi r hr' => ?_
    obtain ⟨z, d, a, g3, -⟩ := g1.step i hi r hr'
    rw [prepared_gap (g1.shape.kind i hi).form g3]
  have hd := key k st x' h
  rw [hd, ← hlen] at hst
  have hB' : S.factor * (L.length : ℝ) ≤ 1 / 32 := by rw [hlen]; exact hB
  have hpos : 0 < S.factor * (L.length : ℝ) := by rw [hlen]; exact mul_pos hS (by linarith)
  have g1 := h2 hn fun a ha => by
    have := (abs_le.1 ((Divergence.le_dist (k := k) ha).trans
      (Divergence.dist_sq_le (B := 1 / 16) (by norm_num) (hst.trans (by nlinarith)))))
    rw [abs_le]
    constructor <;> by_contra hcon <;> nlinarith [not_le.1 hcon]
  obtain ⟨g3, g4⟩ := Divergence.mu_grow hv g1 hS hk0 hτ hτS hB' hst
  refine ⟨_, g2, g3, fun k' h3 h4 st' x'' h5 => ?_⟩
  rw [key k' st' x'' h5, ← hlen]
  exact g4 k' h3 h4

end Verif.ConeCentering
