import Verif.Lemmas.ConeItem

/-!
# Lemmas for C92: steps with a fixed barrier parameter
-/

namespace Verif.ConeCentering

open Finset Verif.Dual Iteration.Spec Whole.Spec Spec Spin
open Spin.Spec (IsForm Interior Same IsFun)
open Soc (El)
open Soc.Spec (Prepared Taken)
open Centering.Spec (gradients)
open Whole (nth_get nth_mem nth_of forall₂_nth ventry_congr)

/-- A sum over all cells. -/
noncomputable def total (es : List (Entry ℝ)) (f : Nat → Nat → ℝ) : ℝ :=
  ∑ i ∈ range es.length, ∑ r ∈ range (cells (nth es i).item), f i r

theorem total_congr {es : List (Entry ℝ)} {f g : Nat → Nat → ℝ}
    (h : ∀ i < es.length, ∀ r < cells (nth es i).item, f i r = g i r) : total es f = total es g :=
  sum_congr rfl fun i hi => sum_congr rfl fun r hr => h i (mem_range.1 hi) r (mem_range.1 hr)

theorem total_le {es : List (Entry ℝ)} {f g : Nat → Nat → ℝ}
    (h : ∀ i < es.length, ∀ r < cells (nth es i).item, f i r ≤ g i r) : total es f ≤ total es g :=
  sum_le_sum fun i hi => sum_le_sum fun r hr => h i (mem_range.1 hi) r (mem_range.1 hr)

theorem total_nonneg {es : List (Entry ℝ)} {f : Nat → Nat → ℝ}
    (h : ∀ i < es.length, ∀ r < cells (nth es i).item, 0 ≤ f i r) : 0 ≤ total es f :=
  sum_nonneg fun i hi => sum_nonneg fun r hr => h i (mem_range.1 hi) r (mem_range.1 hr)

theorem total_add (es : List (Entry ℝ)) (f g : Nat → Nat → ℝ) :
    total es (fun i r => f i r + g i r) = total es f + total es g := by
  unfold total
  simp only [sum_add_distrib]

theorem total_mul (es : List (Entry ℝ)) (a : ℝ) (f : Nat → Nat → ℝ) :
    total es (fun i r => a * f i r) = a * total es f := by
  unfold total
  simp only [mul_sum]

/-! ### Monotonicity -/

/-- What is needed of the constraints. -/
structure Shape (es : List (Entry ℝ)) (N : Nat) : Prop where
  vars : ∀ e ∈ es, e.vars.Nodup ∧ ∀ v ∈ e.vars, v < N
  kind : ∀ i < es.length, Kind (nth es i).item (nth es i).vars.length

theorem shape_of {p : Iteration.Setup ℝ} {duals : List (List Nat)} {x : Iteration.State ℝ} (hr : Ready p duals x)
    (hp : VectorCones x.es) : Shape x.es p.N ∧
      ∀ i < x.es.length, ∀ r < cells (nth x.es i).item, Interior (form (nth x.es i).item) (point (nth x.es i).item r) := by
  have key : ∀ i < x.es.length, Kind (nth x.es i).item (nth x.es i).vars.length ∧
      ∀ r < cells (nth x.es i).item, Interior (form (nth x.es i).item) (point (nth x.es i).item r) := by
    intro i hi
    have hm := nth_mem hi
    have hg := (hr.good _ hm).2.2
    have hu := hr.usable _ hm
    rcases hp _ hm with ⟨o, w, h⟩ | ⟨o, w, h⟩ | ⟨o, w, h⟩ | ⟨n, Q, h⟩
    · rw [h] at hg hu ⊢
      refine ⟨Or.inl ⟨o, w, rfl, hu, hg.1⟩, fun r hr => ⟨hg.2 r hr, ?_⟩⟩
      exact pow_pos (hg.2 r hr) 2
    · rw [h] at hg ⊢
      exact ⟨Or.inr (Or.inl ⟨o, w, rfl, hg.2.1, hg.1⟩), fun r _ => hg.2.2⟩
    · rw [h] at hg ⊢
      exact ⟨Or.inr (Or.inr (Or.inl ⟨o, w, rfl, hg.2.1, hg.2.2.1, hg.1⟩)), fun r _ => hg.2.2.2⟩
    · rw [h] at hg ⊢
      exact ⟨Or.inr (Or.inr (Or.inr ⟨n, Q, rfl, hg.1, hg.2⟩)), fun r hr => absurd hr (Nat.not_lt_zero r)⟩
  exact ⟨⟨fun e he => ⟨(hr.good e he).1, (hr.good e he).2.1⟩, fun i hi => (key i hi).1⟩, fun i hi => (key i hi).2⟩

theorem slack_eq (es : List (Entry ℝ)) (c : ℝ) (y : Nat → ℝ) (i r : Nat) :
    slack es c y i r =
      slackAt (nth es i).item (nth es i).vars.length c (fun j => y ((nth es i).vars.getD j 0)) r := rfl

/-- The change of the inner product with a slack. -/
theorem pair_slack {es : List (Entry ℝ)} {N : Nat} (hs : Shape es N) (c : ℝ) (y z : Nat → ℝ) (x : Nat → Nat → El ℝ) {i : Nat}
    (hi : i < es.length) (r : Nat) :
    Spin.Spec.tr (form (nth es i).item) (x i r) (slack es c y i r) -
        Spin.Spec.tr (form (nth es i).item) (x i r) (slack es c z i r) =
      -∑ j ∈ range (nth es i).vars.length, (y ((nth es i).vars.getD j 0) - z ((nth es i).vars.getD j 0)) *
        Spin.Spec.tr (form (nth es i).item) (column (nth es i).item r j) (x i r) := by
  have hB := (hs.kind i hi).form
  rw [slack_eq, slack_eq]
  unfold slackAt
  rw [tr_comm hB, tr_slack hB, tr_comm hB (x i r), tr_slack hB]
  simp only [sub_mul, sum_sub_distrib]
  ring

/-- Pairing of a point with the images. -/
theorem pairing {es : List (Entry ℝ)} {N : Nat} (hs : Shape es N) (x : Nat → Nat → El ℝ) (y : Nat → ℝ) :
    ∑ u ∈ range N, y u * image es x u = total es fun i r =>
      ∑ j ∈ range (nth es i).vars.length, y ((nth es i).vars.getD j 0) *
        pair (nth es i).item (column (nth es i).item r j) (x i r) := by
  unfold Spec.image total
  simp only [mul_sum]
  rw [sum_comm]
  refine sum_congr rfl fun i hi => ?_
  have hi := mem_range.1 hi
  obtain ⟨h1, h2⟩ := hs.vars _ (nth_mem hi)
  rw [Gap.sum_ventry h1 h2]
  simp only [mul_sum]
  rw [sum_comm]

/-- The gradients are monotone. -/
theorem gradients_mono {es : List (Entry ℝ)} {N : Nat} (hs : Shape es N) (y z : Nat → ℝ) :
    0 ≤ ∑ u ∈ range N, (y u - z u) * (gradients es y u - gradients es z u) := by
  unfold gradients
  simp only [← sum_sub_distrib, mul_sum]
  rw [sum_comm]
  refine sum_nonneg fun i hi => ?_
  have hi := mem_range.1 hi
  obtain ⟨h1, h2⟩ := hs.vars _ (nth_mem hi)
  simp only [mul_sub, sum_sub_distrib]
  rw [Gap.sum_ventry h1 h2 (fun u => y u - z u), Gap.sum_ventry h1 h2 (fun u => y u - z u), ← sum_sub_distrib]
  rcases hs.kind i hi with ⟨o, w, ho, -⟩ | ⟨o, w, ho, -⟩ | ⟨o, w, ho, -⟩ | ⟨n, Q, ho, hn, hQ⟩
  · rw [ho]
    simp [Centering.Spec.gradient]
  · rw [ho]
    simp [Centering.Spec.gradient]
  · rw [ho]
    simp [Centering.Spec.gradient]
  · rw [ho, ← hn]
    refine (hQ.2 fun j => y ((nth es i).vars.getD j 0) - z ((nth es i).vars.getD j 0)).trans (le_of_eq ?_)
    refine sum_congr rfl fun j _ => ?_
    simp only [Centering.Spec.gradient]
    rw [← mul_sub, ← sum_sub_distrib]
    congr 1
    exact sum_congr rfl fun l _ => by ring

/-- The inner product of differences, in all cells. -/
theorem cross_eq {es : List (Entry ℝ)} {N : Nat} (hs : Shape es N) (x x' : Nat → Nat → El ℝ) (y y' : Nat → ℝ) (c : ℝ) :
    (total es fun i r => half (nth es i).item * cross (form (nth es i).item) (x i r) (x' i r) (slack es c y i r)
      (slack es c y' i r)) = -∑ u ∈ range N, (y u - y' u) * (image es x u - image es x' u) := by
  have h1 := pairing hs x fun u => y u - y' u
  have h2 := pairing hs x' fun u => y u - y' u
  have e1 : ∑ u ∈ range N, (y u - y' u) * (image es x u - image es x' u) =
      ∑ u ∈ range N, (y u - y' u) * image es x u + -1 * ∑ u ∈ range N, (y u - y' u) * image es x' u := by
    rw [mul_sum, ← sum_add_distrib]
    exact sum_congr rfl fun u _ => by ring
  rw [e1, h1, h2, ← total_mul, ← total_add, ← neg_one_mul, ← total_mul]
  refine total_congr fun i hi r _ => ?_
  have e2 := pair_slack hs c y y' x hi r
  have e3 := pair_slack hs c y y' x' hi r
  unfold cross
  simp only [pair_eq]
  have e4 : ∀ x : Nat → Nat → El ℝ, ∑ j ∈ range (nth es i).vars.length,
      (y ((nth es i).vars.getD j 0) - y' ((nth es i).vars.getD j 0)) *
        (half (nth es i).item * Spin.Spec.tr (form (nth es i).item) (column (nth es i).item r j) (x i r)) =
      half (nth es i).item * ∑ j ∈ range (nth es i).vars.length,
      (y ((nth es i).vars.getD j 0) - y' ((nth es i).vars.getD j 0)) *
        Spin.Spec.tr (form (nth es i).item) (column (nth es i).item r j) (x i r) := fun x => by
    rw [mul_sum]
    exact sum_congr rfl fun j _ => by ring
  rw [e4, e4]
  linear_combination half (nth es i).item * e2 - half (nth es i).item * e3

/-- Two solutions of the equations of the same barrier parameter. -/
theorem monotone {es : List (Entry ℝ)} {N : Nat} (hs : Shape es N) {x x' : Nat → Nat → El ℝ} {y y' : Nat → ℝ} (c : ℝ)
    (h : ∀ u < N, image es x u + gradients es y u = image es x' u + gradients es y' u) :
    0 ≤ total es fun i r => half (nth es i).item * cross (form (nth es i).item) (x i r) (x' i r) (slack es c y i r)
      (slack es c y' i r) := by
  rw [cross_eq hs]
  refine (gradients_mono hs y y').trans (le_of_eq ?_)
  rw [← sum_neg_distrib]
  refine sum_congr rfl fun u hu => ?_
  linear_combination (y u - y' u) * (h u (mem_range.1 hu))

/-! ### The equations of an iteration -/

/-- The residuals of the constraints. -/
theorem residual_cells {sqrt : ℝ → ℝ} (hv : ∀ x, 0 ≤ x → SolveLoop.Spec.SqrtAt sqrt x) {es : List (Entry ℝ)} {N : Nat}
    (hs : Shape es N)
    (hw : ∀ i < es.length, ∀ r < cells (nth es i).item, Interior (form (nth es i).item) (point (nth es i).item r))
    {s : Nat → Schur.Sys ℝ} (h1 : KktError.Spec.Contributions sqrt es s) (c : ℝ) (y : Nat → ℝ) (u : Nat) :
    image es (fun i r => dualPoint (form (nth es i).item) (point (nth es i).item r) (slack es c y i r)) u +
        gradients es y u =
      ∑ i ∈ range es.length, Sup.Spec.ventry ((es.map Entry.vars).getD i [])
        (Gap.res (s i) ((es.map Entry.vars).getD i []).length c (Gap.local' ((es.map Entry.vars).getD i []) y)) u := by
  unfold Spec.image gradients
  rw [← sum_add_distrib]
  refine sum_congr rfl fun i hi => ?_
  have hi := mem_range.1 hi
  have hv' : (es.map Entry.vars).getD i [] = (nth es i).vars := by
    rw [List.getD_eq_getElem?_getD, List.getElem?_map, nth_get hi]
    rfl
  rw [hv']
  obtain ⟨s₀, g1, g2⟩ := h1 i _ (nth_get hi)
  have hadd : ∀ f g : Nat → ℝ, Sup.Spec.ventry (nth es i).vars f u + Sup.Spec.ventry (nth es i).vars g u =
      Sup.Spec.ventry (nth es i).vars (fun j => f j + g j) u := by
    intro f g
    unfold Sup.Spec.ventry
    split_ifs
    · rfl
    · ring
  rw [hadd]
  refine ventry_congr (fun j hj => ?_) u
  exact (item_res hv (hs.kind i hi) (hw i hi) g1 g2 c (fun j => y ((nth es i).vars.getD j 0)) j hj).symm

/-- The linear system of an iteration. -/
theorem newton {v : Env ℝ} (hv : ∀ x, 0 ≤ x → SolveLoop.Spec.SqrtAt v.sqrt x) {p : Iteration.Setup ℝ}
    {duals : List (List Nat)} {x x' : Iteration.State ℝ} (hr : Ready p duals x) (hp : VectorCones x.es) {k : ℝ}
    {st : Iteration.Step ℝ} (h : Iteration.iterate v p k x = .ok (some (st, x'))) (hu : Unregularized st) :
    ∀ u < p.N, image x.es (fun i r => dualPoint (form (nth x.es i).item) (point (nth x.es i).item r)
      (slack x.es (k * p.cs) st.y i r)) u + gradients x.es st.y u = k * p.bs * p.b u := by
  intro u hu'
  obtain ⟨⟨s, -, h1, h2, -⟩, -⟩ := Iteration.iterate_values hr.built (fun e he => (hr.good e he).1) hr.sized h hu
  obtain ⟨hs, hw⟩ := shape_of hr hp
  rw [residual_cells hv hs hw h1]
  exact Gap.system_res (fun e he => ⟨(hr.good e he).1, (hr.good e he).2.1⟩) (h2 u hu')

/-! ### Steps -/

/-- The same constraints with other scaling points. -/
structure Alike (es es' : List (Entry ℝ)) : Prop where
  length : es'.length = es.length
  vars : ∀ i < es.length, (nth es' i).vars = (nth es i).vars
  data : ∀ i < es.length, Kin' (nth es i).item (nth es' i).item

theorem Alike.refl (es : List (Entry ℝ)) : Alike es es :=
  ⟨rfl, fun _ _ => rfl, fun _ _ => ⟨rfl, rfl, rfl, rfl, rfl, fun _ => rfl⟩⟩

theorem Alike.trans {es es' es'' : List (Entry ℝ)} (h : Alike es es') (h' : Alike es' es'') : Alike es es'' := by
  refine ⟨h'.length.trans h.length, fun i hi => (h'.vars i (h.length ▸ hi)).trans (h.vars i hi), fun i hi => ?_⟩
  have h1 := h.data i hi
  have h2 := h'.data i (h.length ▸ hi)
  exact ⟨h2.cells.trans h1.cells, h2.form.trans h1.form, h2.half.trans h1.half, h2.column.trans h1.column,
    h2.affine.trans h1.affine, fun y => (h2.gradient y).trans (h1.gradient y)⟩

theorem Alike.total {es es' : List (Entry ℝ)} (h : Alike es es') (f : Nat → Nat → ℝ) : total es' f = total es f := by
  unfold ConeCentering.total
  rw [h.length]
  exact sum_congr rfl fun i hi => by rw [(h.data i (mem_range.1 hi)).cells]

theorem Alike.image {es es' : List (Entry ℝ)} (h : Alike es es') (x : Nat → Nat → El ℝ) (u : Nat) :
    image es' x u = image es x u := by
  unfold Spec.image
  rw [h.length]
  refine sum_congr rfl fun i hi => ?_
  have h1 := h.data i (mem_range.1 hi)
  rw [h.vars i (mem_range.1 hi), h1.cells, h1.column]
  simp only [h1.pair]

theorem Alike.gradients {es es' : List (Entry ℝ)} (h : Alike es es') (y : Nat → ℝ) (u : Nat) :
    gradients es' y u = gradients es y u := by
  unfold Centering.Spec.gradients
  rw [h.length]
  refine sum_congr rfl fun i hi => ?_
  rw [h.vars i (mem_range.1 hi), (h.data i (mem_range.1 hi)).gradient]

theorem Alike.slack {es es' : List (Entry ℝ)} (h : Alike es es') (c : ℝ) (y : Nat → ℝ) {i : Nat} (hi : i < es.length)
    (r : Nat) : slack es' c y i r = slack es c y i r := by
  unfold Spec.slack
  simp only [(h.data i hi).affine, (h.data i hi).column, h.vars i hi]

theorem image_congr {es : List (Entry ℝ)} {x x' : Nat → Nat → El ℝ}
    (h : ∀ i < es.length, ∀ r < cells (nth es i).item, x i r = x' i r) (u : Nat) : image es x u = image es x' u := by
  unfold Spec.image
  refine sum_congr rfl fun i hi => ventry_congr (fun j _ => sum_congr rfl fun r hr => ?_) u
  rw [h i (mem_range.1 hi) r (mem_range.1 hr)]

theorem Alike.central {es es' : List (Entry ℝ)} (h : Alike es es') {N : Nat} {g : Nat → ℝ} {c : ℝ} {z : Nat → ℝ}
    (hz : Central es N g c z) : Central es' N g c z := by
  refine ⟨fun i hi r hr => ?_, fun u hu => ?_⟩
  · rw [h.length] at hi
    rw [(h.data i hi).cells] at hr
    rw [h.slack c z hi, (h.data i hi).form]
    exact hz.interior i hi r hr
  · rw [← hz.stationary u hu, h.gradients, h.image]
    congr 1
    refine image_congr (fun i hi r hr => ?_) u
    beta_reduce
    rw [h.slack c z hi, (h.data i hi).form]

/-- An iteration. -/
structure Iterated (es es' : List (Entry ℝ)) (N : Nat) (g : Nat → ℝ) (c : ℝ) (y : Nat → ℝ) (A B : ℝ)
    (q : Nat → Nat → ℝ) : Prop where
  shape : Shape es N
  alike : Alike es es'
  pos : ∀ i < es.length, ∀ r < cells (nth es i).item, Interior (form (nth es i).item) (point (nth es i).item r)
  newton : ∀ u < N, image es (fun i r => dualPoint (form (nth es i).item) (point (nth es i).item r)
    (slack es c y i r)) u + gradients es y u = g u
  step : ∀ i < es.length, ∀ r < cells (nth es i).item, ∃ z d a,
    Prepared (form (nth es i).item) (point (nth es i).item r) (slack es c y i r) z d a (q i r) ∧
    Taken (form (nth es i).item) Real.exp z d (SolveLoop.stepSize A) (point (nth es' i).item r) ∧ a ≤ A
  sum : B = total es fun i r => half (nth es i).item * q i r
  attained : A = -1 ∨ A * A ≤ B

theorem prepared_nonneg {F : (Nat → ℝ) → (Nat → ℝ) → ℝ} {w s z d : El ℝ} {a b : ℝ} (h : Prepared F w s z d a b) :
    0 ≤ a ∧ 0 ≤ b := by
  obtain ⟨-, -, -, l₁, l₂, -, rfl, rfl⟩ := h
  exact ⟨(abs_nonneg _).trans (le_max_left _ _), by positivity⟩

theorem iterated {v : Env ℝ} (hv : ∀ x, 0 ≤ x → SolveLoop.Spec.SqrtAt v.sqrt x) (hexp : v.exp = Real.exp)
    {p : Iteration.Setup ℝ} {duals : List (List Nat)}
    {x x' : Iteration.State ℝ} (hr : Ready p duals x) (hp : VectorCones x.es) {k : ℝ} {st : Iteration.Step ℝ}
    (h : Iteration.iterate v p k x = .ok (some (st, x'))) (hu : Unregularized st) :
    (∃ q, Iterated x.es x'.es p.N (fun u => k * p.bs * p.b u) (k * p.cs) st.y st.norm st.normsqrd q) ∧
      VectorCones x'.es := by
  obtain ⟨-, -, -, -, es₁, -, -, -, -, -, -, -, h3, h4, -⟩ := Iteration.iterate_ok h
  obtain ⟨hs, hw⟩ := shape_of hr hp
  obtain ⟨h5, h6⟩ := forall₂_nth (Gap.prepare_take x.es h3 h4)
  obtain ⟨-, β, h7, h8⟩ := Gap.prepareLoop_inv x.es h3
  have key : ∀ i < x.es.length, (nth x'.es i).vars = (nth x.es i).vars ∧ Kin (nth x.es i).item (nth x'.es i).item ∧
      ∃ q : Nat → ℝ, (∀ r < cells (nth x.es i).item, ∃ z d a,
        Prepared (form (nth x.es i).item) (point (nth x.es i).item r) (slack x.es (k * p.cs) st.y i r) z d a (q r) ∧
        Taken (form (nth x.es i).item) Real.exp z d (SolveLoop.stepSize st.norm) (point (nth x'.es i).item r) ∧
        a ≤ st.norm) ∧
      β i = ∑ r ∈ range (cells (nth x.es i).item), half (nth x.es i).item * q r := by
    intro i hi
    obtain ⟨g1, x₁, n, b, g2, g3⟩ := h6 i hi
    obtain ⟨x₂, n₂, g4, g5⟩ := h8 i _ (nth_get hi)
    rw [g2, Outcome.ok.injEq, Prod.mk.injEq, Prod.mk.injEq] at g4
    obtain ⟨rfl, rfl, rfl⟩ := g4
    obtain ⟨f1, -, q, n', f2, f3, f4, -⟩ := item_step hv hexp (hs.kind i hi) (hw i hi) g2 g3
    refine ⟨g1, f1, q, fun r hr => ?_, f4⟩
    obtain ⟨z, d, a, e1, e2, e3⟩ := f3 r hr
    exact ⟨z, d, a, e1, e2, e3.trans (g5 n' f2)⟩
  choose! q hq using fun i (hi : i < x.es.length) => (key i hi).2.2
  refine ⟨⟨q, hs, ⟨h5, fun i hi => (key i hi).1, fun i hi => (key i hi).2.1.data⟩, hw, newton hv hr hp h hu,
    fun i hi => (hq i hi).1, ?_, ?_⟩, ?_⟩
  · rw [h7, zero_add]
    exact sum_congr rfl fun i hi => (hq i (mem_range.1 hi)).2
  · rcases Centering.attained x.es h3 with h9 | ⟨i, e, x₁, b, g1, g2⟩
    · exact Or.inl h9
    right
    have hi := (List.getElem?_eq_some_iff.1 g1).1
    have hi' := nth_of g1
    subst hi'
    obtain ⟨-, x₂, n, b', g3, g4⟩ := h6 i hi
    obtain ⟨x₃, n₃, g5, -⟩ := h8 i _ (nth_get hi)
    rw [g2, Outcome.ok.injEq, Prod.mk.injEq, Prod.mk.injEq] at g3 g5
    obtain ⟨rfl, rfl, rfl⟩ := g3
    obtain ⟨-, -, hb⟩ := g5
    obtain ⟨-, -, q', n', f2, f3, f4, f5⟩ := item_step hv hexp (hs.kind i hi) (hw i hi) g2 g4
    rw [Option.some.injEq] at f2
    subst f2
    refine f5.trans ?_
    rw [h7, zero_add, hb]
    refine single_le_sum (f := β) (fun l hl => ?_) (mem_range.2 hi)
    rw [(hq l (mem_range.1 hl)).2]
    refine sum_nonneg fun r hr => mul_nonneg (half_pos _).le ?_
    obtain ⟨z, d, a, e1, -⟩ := (hq l (mem_range.1 hl)).1 r (mem_range.1 hr)
    exact (prepared_nonneg e1).2
  · intro e he
    obtain ⟨i, hi⟩ := List.getElem?_of_mem he
    have hlt := (List.getElem?_eq_some_iff.1 hi).1
    rw [h5] at hlt
    have := (((key i hlt).2.1).kind (hs.kind i hlt)).vector
    rw [nth_of hi] at this
    exact this

/-! ### Consequences -/

variable {es es' es'' : List (Entry ℝ)} {N : Nat} {g : Nat → ℝ} {c : ℝ} {y y' z : Nat → ℝ} {A B A' B' : ℝ}
  {q q' : Nat → Nat → ℝ}

theorem Iterated.step_nonneg (h : Iterated es es' N g c y A B q) : ∀ i < es.length, ∀ r < cells (nth es i).item,
    0 ≤ A ∧ 0 ≤ q i r := fun i hi r hr => by
  obtain ⟨z, d, a, h1, -, h2⟩ := h.step i hi r hr
  exact ⟨(prepared_nonneg h1).1.trans h2, (prepared_nonneg h1).2⟩

theorem iterated_nonneg (h : Iterated es es' N g c y A B q) : 0 ≤ B := by
  rw [h.sum]
  exact total_nonneg fun i hi r hr => mul_nonneg (half_pos _).le (h.step_nonneg i hi r hr).2

/-- The largest component is at most the Euclidean norm. -/
theorem iterated_norm (h : Iterated es es' N g c y A B q) : A ^ 2 * B ≤ B ^ 2 := by
  rcases h.attained with h1 | h1
  · have : B = 0 := by
      rw [h.sum]
      refine sum_eq_zero fun i hi => sum_eq_zero fun r hr => ?_
      have := (h.step_nonneg i (mem_range.1 hi) r (mem_range.1 hr)).1
      rw [h1] at this
      norm_num at this
    rw [this]
    norm_num
  · nlinarith [iterated_nonneg h]

theorem iterated_le_one (h : Iterated es es' N g c y A B q) (hB : B ≤ 1) : A ≤ 1 := by
  rcases h.attained with h1 | h1
  · rw [h1]; norm_num
  · nlinarith

theorem step_size_one {A : ℝ} (h0 : 0 ≤ A) (hA : A ≤ 1) : SolveLoop.stepSize A = 1 := by
  unfold SolveLoop.stepSize
  by_cases hz : A = 0
  · rw [if_pos hz]
  · rw [if_neg hz, if_pos]
    have : 0 < A := lt_of_le_of_ne h0 (Ne.symm hz)
    rw [lt_div_iff₀ (by positivity)]
    nlinarith

/-- Quadratic convergence. -/
theorem iterated_quadratic (h : Iterated es es' N g c y A B q) (h' : Iterated es' es'' N g c y' A' B' q') (hA : A ≤ 1) :
    B' ≤ 2 * A ^ 2 * B := by
  have ha := h.alike
  have hmono := monotone h.shape
    (x := fun i r => dualPoint (form (nth es i).item) (point (nth es' i).item r) (slack es c y' i r))
    (x' := fun i r => dualPoint (form (nth es i).item) (point (nth es i).item r) (slack es c y i r))
    (y := y') (y' := y) c fun u hu => by
      rw [h.newton u hu, ← h'.newton u hu, ha.gradients, ha.image]
      congr 1
      refine image_congr (fun i hi r _ => ?_) u
      beta_reduce
      rw [(ha.data i hi).form, ha.slack c y' hi]
  have hle : total es (fun i r => half (nth es i).item * (1 / 2 * q' i r + cross (form (nth es i).item)
      (dualPoint (form (nth es i).item) (point (nth es' i).item r) (slack es c y' i r))
      (dualPoint (form (nth es i).item) (point (nth es i).item r) (slack es c y i r)) (slack es c y' i r)
      (slack es c y i r))) ≤ total es fun i r => half (nth es i).item * (A ^ 2 * q i r) := by
    refine total_le fun i hi r hr => mul_le_mul_of_nonneg_left ?_ (half_pos _).le
    obtain ⟨z, d, a, h1, h2, h3⟩ := h.step i hi r hr
    obtain ⟨z', d', a', h1', -, -⟩ := h'.step i (by rw [ha.length]; exact hi) r (by rw [(ha.data i hi).cells]; exact hr)
    rw [(ha.data i hi).form, ha.slack c y' hi] at h1'
    rw [step_size_one ((prepared_nonneg h1).1.trans h3) hA] at h2
    exact cell_quadratic (h.shape.kind i hi).form h1 h2 h1' (h3.trans hA) h3
  have e1 : total es (fun i r => half (nth es i).item * (A ^ 2 * q i r)) = A ^ 2 * B := by
    rw [h.sum, ← total_mul]
    exact total_congr fun i _ r _ => by ring
  have e2 : B' = total es fun i r => half (nth es i).item * q' i r := by
    rw [h'.sum, ha.total]
    exact total_congr fun i hi r _ => by rw [(ha.data i hi).half]
  simp only [mul_add] at hle
  rw [total_add, e1] at hle
  have e3 : total es (fun i r => half (nth es i).item * (1 / 2 * q' i r)) = 1 / 2 * B' := by
    rw [e2, ← total_mul]
    exact total_congr fun i _ r _ => by ring
  rw [e3] at hle
  linarith

/-- Decrease of the distance. -/
theorem iterated_decrease (h : Iterated es es' N g c y A B q) (hz : Central es N g c z) :
    distance es' c z ≤ distance es c z - SolveLoop.stepSize A / 10 * B := by
  have ha := h.alike
  obtain ⟨ht, ht', -, htA, -⟩ := SolveLoop.C29_step_size A
  set t := SolveLoop.stepSize A with htdef
  have hmono := monotone h.shape
    (x := fun i r => dualPoint (form (nth es i).item) (point (nth es i).item r) (slack es c y i r))
    (x' := fun i r => inverse (form (nth es i).item) (slack es c z i r)) (y := y) (y' := z) c fun u hu => by
      rw [h.newton u hu, hz.stationary u hu]
  have e1 : distance es' c z = total es fun i r => half (nth es i).item *
      sep (form (nth es i).item) (point (nth es' i).item r) (slack es c z i r) := by
    have : distance es' c z = total es' fun i r =>
      separation (nth es' i).item (point (nth es' i).item r) (slack es' c z i r) := rfl
    rw [this, ha.total]
    refine total_congr fun i hi r _ => ?_
    rw [separation_eq, (ha.data i hi).half, (ha.data i hi).form, ha.slack c z hi]
  have e2 : distance es c z = total es fun i r => half (nth es i).item *
      sep (form (nth es i).item) (point (nth es i).item r) (slack es c z i r) :=
    total_congr fun i hi r _ => by rw [separation_eq]
  have hle : total es (fun i r => half (nth es i).item *
        sep (form (nth es i).item) (point (nth es' i).item r) (slack es c z i r) +
      -1 * (half (nth es i).item * sep (form (nth es i).item) (point (nth es i).item r) (slack es c z i r))) ≤
      total es fun i r => (-(t + t ^ 2 / 3)) * (half (nth es i).item * cross (form (nth es i).item)
        (dualPoint (form (nth es i).item) (point (nth es i).item r) (slack es c y i r))
        (inverse (form (nth es i).item) (slack es c z i r)) (slack es c y i r) (slack es c z i r)) +
      (-(t / 10)) * (half (nth es i).item * q i r) := by
    refine total_le fun i hi r hr => ?_
    obtain ⟨z', d, a, h1, h2, h3⟩ := h.step i hi r hr
    have h0 := (prepared_nonneg h1).1
    have hta : t * (a * a) ≤ 2 :=
      (mul_le_mul_of_nonneg_left (mul_le_mul h3 h3 h0 (h0.trans h3)) ht.le).trans htA
    have h4 := cell_decrease (h.shape.kind i hi).form h1 h2 (hz.interior i hi r hr) ht ht' hta
    have h5 := mul_le_mul_of_nonneg_left h4 (half_pos (nth es i).item).le
    linarith
  rw [total_add, total_mul, total_add, total_mul, total_mul, ← e1, ← e2, ← h.sum] at hle
  have h5 : 0 ≤ (t + t ^ 2 / 3) * total es (fun i r => half (nth es i).item * cross (form (nth es i).item)
        (dualPoint (form (nth es i).item) (point (nth es i).item r) (slack es c y i r))
        (inverse (form (nth es i).item) (slack es c z i r)) (slack es c y i r) (slack es c z i r)) :=
    mul_nonneg (by positivity) hmono
  linarith

/-- A step decreases the distance by a tenth of the smaller of two and the squared norm. -/
theorem iterated_min (h : Iterated es es' N g c y A B q) (hz : Central es N g c z) :
    distance es' c z ≤ distance es c z - min 2 B / 10 := by
  have h1 := iterated_decrease h hz
  obtain ⟨ht, ht', h2, -, -⟩ := SolveLoop.C29_step_size A
  have hB := iterated_nonneg h
  suffices min 2 B ≤ SolveLoop.stepSize A * B by linarith
  by_cases hA : A * A ≤ 2
  · rw [h2.2 hA, one_mul]
    exact min_le_right _ _
  · have h3 : A * A ≤ B := by
      rcases h.attained with h3 | h3
      · rw [h3] at hA
        norm_num at hA
      · exact h3
    have h4 : SolveLoop.stepSize A * (A * A) = 2 := by
      unfold SolveLoop.stepSize
      have h0 : A ≠ 0 := by
        rintro rfl
        norm_num at hA
      have h5 : ¬ 1 < 2 / (A * A) := by
        rw [lt_div_iff₀ (mul_self_pos.2 h0)]
        linarith
      rw [if_neg h0, if_neg h5, div_mul_cancel₀]
      exact (mul_self_pos.2 h0).ne'
    have h5 := mul_le_mul_of_nonneg_left h3 ht.le
    exact (min_le_left _ _).trans (by linarith)

theorem distance_nonneg (hs : Shape es N)
    (hw : ∀ i < es.length, ∀ r < cells (nth es i).item, Interior (form (nth es i).item) (point (nth es i).item r))
    (hz : ∀ i < es.length, ∀ r < cells (nth es i).item, Interior (form (nth es i).item) (slack es c z i r)) :
    0 ≤ distance es c z := by
  refine sum_nonneg fun i hi => sum_nonneg fun r hr => ?_
  have hi := mem_range.1 hi
  have hr := mem_range.1 hr
  rw [separation_eq]
  exact mul_nonneg (half_pos _).le (sep_nonneg (hs.kind i hi).form (hw i hi r hr) (hz i hi r hr))

theorem not_dense (h : VectorCones es) : ∀ e ∈ es, ¬ DenseMatrix e.item := by
  intro e he hd
  rcases h e he with ⟨o, w, ho⟩ | ⟨o, w, ho⟩ | ⟨o, w, ho⟩ | ⟨n, Q, ho⟩ <;> rw [ho] at hd <;> exact hd

/-- All iterations with a fixed barrier parameter. -/
theorem run {v : Env ℝ} (hv : ∀ x, 0 ≤ x → SolveLoop.Spec.SqrtAt v.sqrt x) (hexp : v.exp = Real.exp)
    (hs : ∀ n, MatrixExp.Spec.Solves (v.solve n)) {p : Iteration.Setup ℝ} {duals : List (List Nat)}
    {X : Nat → Iteration.State ℝ} {ST : Nat → Iteration.Step ℝ} (hr : Ready p duals (X 0)) (hp : VectorCones (X 0).es)
    {k : ℝ} (h : ∀ l, Iteration.iterate v p k (X l) = .ok (some (ST l, X (l + 1))))
    (l : Nat) :
    Alike (X 0).es (X l).es ∧ VectorCones (X l).es ∧ Ready p duals (X l) ∧
    ∃ q, Iterated (X l).es (X (l + 1)).es p.N (fun u => k * p.bs * p.b u) (k * p.cs) (ST l).y (ST l).norm
      (ST l).normsqrd q := by
  have he : ∀ x, 0 < v.exp x := fun x => hexp ▸ Real.exp_pos x
  induction l with
  | zero => exact ⟨Alike.refl _, hp, hr, (iterated hv hexp hr hp (h 0) (Centering.unregularized hv he hr (h 0))).1⟩
  | succ l ih =>
    obtain ⟨h1, h2, h3, q, h4⟩ := ih
    have h5 := (iterated hv hexp h3 h2 (h l) (Centering.unregularized hv he h3 (h l))).2
    obtain ⟨h6, -⟩ := Iteration.ready_next hv he hs h3 (h l) (Centering.unregularized hv he h3 (h l))
      fun e he' hd' => absurd hd' (not_dense h2 e he')
    exact ⟨h1.trans h4.alike, h5, h6,
      (iterated hv hexp h6 h5 (h (l + 1)) (Centering.unregularized hv he h6 (h (l + 1)))).1⟩

end Verif.ConeCentering
