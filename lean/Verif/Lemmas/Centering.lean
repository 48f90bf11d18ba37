import Verif.Lemmas.CenteringScalar
import Verif.Lemmas.DualCertificate
import Verif.Spec.Centering

/-!
# Lemmas for C88: steps with a fixed barrier parameter
-/

namespace Verif.Centering

open Finset Verif.Dual Iteration.Spec Whole.Spec Spec
open Whole (nth_get nth_mem nth_of forall₂_nth ventry_congr)

/-- A sum over all rows. -/
noncomputable def rows (es : List (Entry ℝ)) (f : Nat → Nat → ℝ) : ℝ :=
  ∑ i ∈ range es.length, ∑ r ∈ range (con (nth es i).item).n, f i r

theorem rows_congr {es : List (Entry ℝ)} {f g : Nat → Nat → ℝ}
    (h : ∀ i < es.length, ∀ r < (con (nth es i).item).n, f i r = g i r) : rows es f = rows es g :=
  sum_congr rfl fun i hi => sum_congr rfl fun r hr => h i (mem_range.1 hi) r (mem_range.1 hr)

theorem rows_le {es : List (Entry ℝ)} {f g : Nat → Nat → ℝ}
    (h : ∀ i < es.length, ∀ r < (con (nth es i).item).n, f i r ≤ g i r) : rows es f ≤ rows es g :=
  sum_le_sum fun i hi => sum_le_sum fun r hr => h i (mem_range.1 hi) r (mem_range.1 hr)

theorem rows_add (es : List (Entry ℝ)) (f g : Nat → Nat → ℝ) :
    rows es (fun i r => f i r + g i r) = rows es f + rows es g := by
  unfold rows
  simp only [sum_add_distrib]

theorem rows_mul (es : List (Entry ℝ)) (a : ℝ) (f : Nat → Nat → ℝ) :
    rows es (fun i r => a * f i r) = a * rows es f := by
  unfold rows
  simp only [mul_sum]

/-! ### Monotonicity -/

/-- What is needed of the constraints. -/
structure Shape (es : List (Entry ℝ)) (N : Nat) : Prop where
  vars : ∀ e ∈ es, e.vars.Nodup ∧ ∀ v ∈ e.vars, v < N
  kind : ∀ i < es.length, (∃ o w, (nth es i).item = .linear o w ∧ 0 < o.n ∧ o.m = (nth es i).vars.length) ∨
    ∃ n Q, (nth es i).item = .cost n Q ∧ n = (nth es i).vars.length ∧ QuadCone.Spec.Psd n Q

theorem shape_of {p : Iteration.Setup ℝ} {duals : List (List Nat)} {x : Iteration.State ℝ} (hr : Ready p duals x)
    (hp : Polyhedral x.es) : Shape x.es p.N := by
  refine ⟨fun e he => ⟨(hr.good e he).1, (hr.good e he).2.1⟩, fun i hi => ?_⟩
  have hm := nth_mem hi
  have hg := (hr.good _ hm).2.2
  have hu := hr.usable _ hm
  rcases hp _ hm with ⟨o, w, h⟩ | ⟨n, Q, h⟩
  · rw [h] at hg hu
    exact Or.inl ⟨o, w, h, hu, hg.1⟩
  · rw [h] at hg
    exact Or.inr ⟨n, Q, h, hg.1, hg.2⟩

/-- Pairing of a point with the images. -/
theorem pairing {es : List (Entry ℝ)} {N : Nat} (hs : Shape es N) (x : Nat → Nat → ℝ) (y : Nat → ℝ) :
    ∑ u ∈ range N, y u * balance es x u = rows es fun i r =>
      x i r * ∑ j ∈ range (con (nth es i).item).m, (con (nth es i).item).A r j * y ((nth es i).vars.getD j 0) := by
  unfold balance rows
  simp only [mul_sum]
  rw [sum_comm]
  refine sum_congr rfl fun i hi => ?_
  have hi := mem_range.1 hi
  obtain ⟨h1, h2⟩ := hs.vars _ (nth_mem hi)
  rw [Gap.sum_ventry h1 h2]
  rcases hs.kind i hi with ⟨o, w, ho, -, hm⟩ | ⟨n, Q, ho, -, -⟩
  · have e1 : con (nth es i).item = o := by rw [ho]; rfl
    rw [e1, ← hm]
    simp only [mul_sum]
    rw [sum_comm]
    exact sum_congr rfl fun r _ => sum_congr rfl fun j _ => by ring
  · have e1 : con (nth es i).item = ⟨0, 0, fun _ _ => 0, fun _ => 0⟩ := by rw [ho]; rfl
    rw [e1]
    simp

/-- The gradients are monotone. -/
theorem gradients_mono {es : List (Entry ℝ)} {N : Nat} (hs : Shape es N) (y z : Nat → ℝ) :
    0 ≤ ∑ u ∈ range N, (y u - z u) * (gradients es y u - gradients es z u) := by
  unfold gradients
  simp only [← sum_sub_distrib, mul_sum]
  rw [sum_comm]
  refine sum_nonneg fun i hi => ?_
  have hi := mem_range.1 hi
  obtain ⟨h1, h2⟩ := hs.vars _ (nth_mem hi)
  simp only [mul_sub, sum_sub_distrib]
  rw [Gap.sum_ventry h1 h2 (fun u => y u - z u), Gap.sum_ventry h1 h2 (fun u => y u - z u), ← sum_sub_distrib]
  rcases hs.kind i hi with ⟨o, w, ho, -, -⟩ | ⟨n, Q, ho, hn, hQ⟩
  · rw [ho]
    simp [gradient]
  · rw [ho, ← hn]
    refine (hQ.2 fun j => y ((nth es i).vars.getD j 0) - z ((nth es i).vars.getD j 0)).trans (le_of_eq ?_)
    refine sum_congr rfl fun j _ => ?_
    simp only [gradient]
    rw [← mul_sub, ← sum_sub_distrib]
    congr 1
    exact sum_congr rfl fun l _ => by ring

/-- Two solutions of the equations of the same barrier parameter. -/
theorem monotone {es : List (Entry ℝ)} {N : Nat} (hs : Shape es N) {x x' : Nat → Nat → ℝ} {y y' : Nat → ℝ} (c : ℝ)
    (h : ∀ u < N, balance es x u + gradients es y u = balance es x' u + gradients es y' u) :
    0 ≤ rows es fun i r => (x i r - x' i r) * (slack es c y i r - slack es c y' i r) := by
  have h1 := pairing hs (fun i r => x i r - x' i r) fun u => y u - y' u
  have h2 : ∀ u, balance es (fun i r => x i r - x' i r) u = balance es x u - balance es x' u := by
    intro u
    unfold balance
    rw [← sum_sub_distrib]
    refine sum_congr rfl fun i _ => ?_
    unfold Sup.Spec.ventry
    split_ifs
    · rw [← sum_sub_distrib]
      exact sum_congr rfl fun r _ => by ring
    · ring
  have h3 := gradients_mono hs y y'
  have h4 : ∑ u ∈ range N, (y u - y' u) * balance es (fun i r => x i r - x' i r) u =
      -∑ u ∈ range N, (y u - y' u) * (gradients es y u - gradients es y' u) := by
    rw [← sum_neg_distrib]
    refine sum_congr rfl fun u hu => ?_
    rw [h2]
    have := h u (mem_range.1 hu)
    linear_combination (y u - y' u) * this
  have h5 : rows es (fun i r => (x i r - x' i r) * (slack es c y i r - slack es c y' i r)) =
      -rows es fun i r => (x i r - x' i r) * ∑ j ∈ range (con (nth es i).item).m,
        (con (nth es i).item).A r j * (y ((nth es i).vars.getD j 0) - y' ((nth es i).vars.getD j 0)) := by
    have := rows_mul es (-1) fun i r => (x i r - x' i r) * ∑ j ∈ range (con (nth es i).item).m,
        (con (nth es i).item).A r j * (y ((nth es i).vars.getD j 0) - y' ((nth es i).vars.getD j 0))
    rw [neg_one_mul] at this
    rw [← this]
    refine rows_congr fun i _ r _ => ?_
    unfold slack
    simp only [mul_sub, sum_sub_distrib]
    ring
  rw [h5, ← h1, h4, neg_neg]
  exact h3

/-! ### The equations of an iteration -/

/-- The direction in row `r` of constraint `i`: one minus the product of scaling point and slack. -/
noncomputable def dir (es : List (Entry ℝ)) (c : ℝ) (y : Nat → ℝ) (i r : Nat) : ℝ :=
  1 - weight (nth es i).item r * slack es c y i r

/-- The residuals of the constraints. -/
theorem residual_rows {sqrt : ℝ → ℝ} {es : List (Entry ℝ)} {N : Nat} (hs : Shape es N) {s : Nat → Schur.Sys ℝ}
    (h1 : KktError.Spec.Contributions sqrt es s) (c : ℝ) (y : Nat → ℝ) (u : Nat) :
    balance es (fun i r => weight (nth es i).item r * (1 + dir es c y i r)) u + gradients es y u =
      ∑ i ∈ range es.length, Sup.Spec.ventry ((es.map Entry.vars).getD i [])
        (Gap.res (s i) ((es.map Entry.vars).getD i []).length c (Gap.local' ((es.map Entry.vars).getD i []) y)) u := by
  unfold balance gradients
  rw [← sum_add_distrib]
  refine sum_congr rfl fun i hi => ?_
  have hi := mem_range.1 hi
  have hv : (es.map Entry.vars).getD i [] = (nth es i).vars := by
    rw [List.getD_eq_getElem?_getD, List.getElem?_map, nth_get hi]
    rfl
  rw [hv]
  obtain ⟨s₀, g1, g2⟩ := h1 i _ (nth_get hi)
  have hadd : ∀ f g : Nat → ℝ, Sup.Spec.ventry (nth es i).vars f u + Sup.Spec.ventry (nth es i).vars g u =
      Sup.Spec.ventry (nth es i).vars (fun j => f j + g j) u := by
    intro f g
    unfold Sup.Spec.ventry
    split_ifs
    · rfl
    · ring
  rw [hadd]
  refine ventry_congr (fun j hj => ?_) u
  rcases hs.kind i hi with ⟨o, w, ho, -, hm⟩ | ⟨n, Q, ho, hn, hQ⟩
  · have e1 : con (nth es i).item = o := by rw [ho]; rfl
    have e2 : weight (nth es i).item = w.W := by rw [ho]; rfl
    have e3 : gradient (fun j => y ((nth es i).vars.getD j 0)) (nth es i).item j = 0 := by rw [ho]; rfl
    rw [e3, add_zero]
    unfold dir slack
    beta_reduce
    rw [e1, e2]
    rw [ho] at g2
    have := Gap.linear_res (g1.trans hm.symm) g2 (c) (fun j => y ((nth es i).vars.getD j 0)) j (by omega)
    rw [← hm]
    refine Eq.trans ?_ this.symm
    refine sum_congr rfl fun r _ => ?_
    unfold Linear.Spec.slack
    ring
  · have e1 : con (nth es i).item = ⟨0, 0, fun _ _ => 0, fun _ => 0⟩ := by rw [ho]; rfl
    rw [ho] at g2
    obtain ⟨t, u', e3, -, e4, -, e5, -⟩ := Equality.C40_cost n Q s₀ (by omega)
    have g2' : Equality.costSchur n Q true s₀ = .ok (s i) := g2
    rw [g2', Outcome.ok.injEq] at e3
    subst e3
    rw [e1]
    simp only [range_zero, sum_empty, zero_add]
    rw [ho]
    unfold gradient Gap.res Gap.local'
    rw [(e5 j).1, (e5 j).2, mul_zero, mul_zero, sub_zero, zero_add, ← hn]
    refine sum_congr rfl fun l hl => ?_
    have hl := mem_range.1 hl
    rw [e4, if_pos (by omega)]
    have : Q (max j l) (min j l) = Q j l := by
      rcases le_total l j with h | h
      · rw [max_eq_left h, min_eq_right h]
      · rw [max_eq_right h, min_eq_left h, hQ.1 l hl j (by omega)]
    rw [this]

/-- The linear system of an iteration. -/
theorem newton {v : Env ℝ} {p : Iteration.Setup ℝ} {duals : List (List Nat)} {x x' : Iteration.State ℝ}
    (hr : Ready p duals x) (hp : Polyhedral x.es) {k : ℝ} {st : Iteration.Step ℝ}
    (h : Iteration.iterate v p k x = .ok (some (st, x'))) (hu : Unregularized st) :
    ∀ u < p.N, balance x.es (fun i r => weight (nth x.es i).item r * (1 + dir x.es (k * p.cs) st.y i r)) u +
      gradients x.es st.y u = k * p.bs * p.b u := by
  intro u hu'
  obtain ⟨⟨s, -, h1, h2, -⟩, -⟩ := Iteration.iterate_values hr.built (fun e he => (hr.good e he).1) hr.sized h hu
  rw [residual_rows (shape_of hr hp) h1]
  exact Gap.system_res (fun e he => ⟨(hr.good e he).1, (hr.good e he).2.1⟩) (h2 u hu')

/-! ### Steps -/

/-- The same constraints with other scaling points. -/
structure Alike (es es' : List (Entry ℝ)) : Prop where
  length : es'.length = es.length
  vars : ∀ i < es.length, (nth es' i).vars = (nth es i).vars
  con : ∀ i < es.length, con (nth es' i).item = con (nth es i).item
  gradient : ∀ i < es.length, ∀ y, gradient y (nth es' i).item = gradient y (nth es i).item

theorem Alike.refl (es : List (Entry ℝ)) : Alike es es :=
  ⟨rfl, fun _ _ => rfl, fun _ _ => rfl, fun _ _ _ => rfl⟩

theorem Alike.trans {es es' es'' : List (Entry ℝ)} (h : Alike es es') (h' : Alike es' es'') : Alike es es'' :=
  ⟨h'.length.trans h.length, fun i hi => (h'.vars i (h.length ▸ hi)).trans (h.vars i hi),
    fun i hi => (h'.con i (h.length ▸ hi)).trans (h.con i hi),
    fun i hi y => (h'.gradient i (h.length ▸ hi) y).trans (h.gradient i hi y)⟩

theorem Alike.rows {es es' : List (Entry ℝ)} (h : Alike es es') (f : Nat → Nat → ℝ) : rows es' f = rows es f := by
  unfold Centering.rows
  rw [h.length]
  exact sum_congr rfl fun i hi => by rw [h.con i (mem_range.1 hi)]

theorem Alike.balance {es es' : List (Entry ℝ)} (h : Alike es es') (x : Nat → Nat → ℝ) (u : Nat) :
    balance es' x u = balance es x u := by
  unfold Whole.Spec.balance
  rw [h.length]
  refine sum_congr rfl fun i hi => ?_
  rw [h.vars i (mem_range.1 hi), h.con i (mem_range.1 hi)]

theorem Alike.gradients {es es' : List (Entry ℝ)} (h : Alike es es') (y : Nat → ℝ) (u : Nat) :
    gradients es' y u = gradients es y u := by
  unfold Spec.gradients
  rw [h.length]
  refine sum_congr rfl fun i hi => ?_
  rw [h.vars i (mem_range.1 hi), h.gradient i (mem_range.1 hi)]

theorem Alike.slack {es es' : List (Entry ℝ)} (h : Alike es es') (c : ℝ) (y : Nat → ℝ) {i : Nat} (hi : i < es.length)
    (r : Nat) : slack es' c y i r = slack es c y i r := by
  unfold Spec.slack
  rw [h.con i hi, h.vars i hi]

/-- The norm is that of a constraint. -/
theorem attained {v : Env ℝ} {c : ℝ} {N : Nat} {y : Nat → ℝ} (es : List (Entry ℝ)) {a b A B : ℝ}
    {es' : List (Entry ℝ)} (h : prepareLoop v c N y a b es = .ok (es', A, B)) :
    A = a ∨ ∃ (i : Nat) (e : Entry ℝ) (x : Item ℝ) (β : ℝ), es[i]? = some e ∧
      e.item.prepareStep v c e.vars.length (fun j => y (e.vars.getD j 0)) = .ok (x, some A, β) := by
  induction es generalizing a b es' with
  | nil =>
    simp only [prepareLoop, Outcome.ok.injEq, Prod.mk.injEq] at h
    exact Or.inl h.2.1.symm
  | cons e es ih =>
    simp only [prepareLoop, SolveLoop.bind_eq_ok] at h
    obtain ⟨z, h1, ⟨x, n, β⟩, h2, ⟨l, A', B'⟩, h3, h4⟩ := h
    simp only [Outcome.ok.injEq, Prod.mk.injEq] at h4
    obtain ⟨-, rfl, rfl⟩ := h4
    unfold gather at h1
    split_ifs at h1
    rw [Outcome.ok.injEq] at h1
    subst h1
    rcases ih h3 with h4 | ⟨i, e', x', β', h4, h5⟩
    · cases n with
      | none => exact Or.inl h4
      | some n =>
        simp only [updateNorm] at h4
        split_ifs at h4
        · subst h4
          exact Or.inr ⟨0, e, x, β, rfl, h2⟩
        · exact Or.inl h4
    · exact Or.inr ⟨i + 1, e', x', β', h4, h5⟩

/-- `PrepareStep` and `TakeStep`. -/
theorem step {v : Env ℝ} {c size : ℝ} {N : Nat} {y : Nat → ℝ} {es es' es'' : List (Entry ℝ)} {A B : ℝ}
    (hs : Shape es N) (hp : Dual.prepareStep v c N y es = .ok (es', A, B))
    (ht : Dual.takeStep v size es' = .ok es'') :
    Alike es es'' ∧ Polyhedral es'' ∧
    (∀ i < es.length, ∀ r, weight (nth es'' i).item r = weight (nth es i).item r * v.exp (size * dir es c y i r)) ∧
    (∀ i < es.length, ∀ r < (con (nth es i).item).n, |dir es c y i r| ≤ A) ∧
    (B = rows es fun i r => dir es c y i r ^ 2) ∧ (A = -1 ∨ A * A ≤ B) := by
  obtain ⟨h1, h2⟩ := forall₂_nth (Gap.prepare_take es hp ht)
  obtain ⟨-, β, h3, h4⟩ := Gap.prepareLoop_inv es hp
  have key : ∀ i < es.length, (nth es'' i).vars = (nth es i).vars ∧
      (con (nth es'' i).item = con (nth es i).item ∧ (∀ y, gradient y (nth es'' i).item = gradient y (nth es i).item) ∧
        ((∃ o w, (nth es'' i).item = .linear o w) ∨ ∃ n Q, (nth es'' i).item = .cost n Q)) ∧
      (∀ r, weight (nth es'' i).item r = weight (nth es i).item r * v.exp (size * dir es c y i r)) ∧
      (∀ r < (con (nth es i).item).n, |dir es c y i r| ≤ A) ∧
      β i = ∑ r ∈ range (con (nth es i).item).n, dir es c y i r ^ 2 := by
    intro i hi
    obtain ⟨h5, x', n, b, h6, h7⟩ := h2 i hi
    obtain ⟨x₁, n₁, h8, h9⟩ := h4 i _ (nth_get hi)
    rw [h6, Outcome.ok.injEq, Prod.mk.injEq, Prod.mk.injEq] at h8
    obtain ⟨rfl, rfl, rfl⟩ := h8
    rcases hs.kind i hi with ⟨o, w, ho, hn, hmi⟩ | ⟨m, Q, ho, hm, -⟩
    · have e1 : con (nth es i).item = o := by rw [ho]; rfl
      have e2 : weight (nth es i).item = w.W := by rw [ho]; rfl
      unfold dir slack
      rw [e1, e2]
      rw [ho] at h6
      obtain ⟨w', a, b', f1, f2, f3, -, f4⟩ := Linear.C35_step v.exp o hn (opt := ⟨false, c, 1, size⟩) rfl hmi.le
        (fun j => y ((nth es i).vars.getD j 0)) w
      have f1' : Linear.prepareStep v.exp o ⟨false, c, 1, 1⟩ (nth es i).vars.length
          (fun j => y ((nth es i).vars.getD j 0)) w = .ok (w', some (a, b')) := f1
      simp only [Item.prepareStep, f1', Outcome.bind_ok, Outcome.ok.injEq, Prod.mk.injEq] at h6
      obtain ⟨rfl, rfl, h6⟩ := h6
      simp only [Item.takeStep, Outcome.ok.injEq] at h7
      refine ⟨h5, ⟨?_, fun y => ?_, Or.inl ⟨_, _, h7.symm⟩⟩, fun r => ?_,
        fun r hr => (f2.2 r hr).trans (h9 a rfl), h6 ▸ f3⟩
      · rw [← h7]; rfl
      · rw [← h7, ho]; rfl
      · rw [← h7]
        exact f4 r
    · have e1 : con (nth es i).item = ⟨0, 0, fun _ _ => 0, fun _ => 0⟩ := by rw [ho]; rfl
      have e2 : weight (nth es i).item = fun _ => 0 := by rw [ho]; rfl
      rw [ho] at h6
      simp only [Item.prepareStep, Outcome.ok.injEq, Prod.mk.injEq] at h6
      obtain ⟨rfl, -, h6⟩ := h6
      simp only [Item.takeStep, Outcome.ok.injEq] at h7
      rw [e1, e2, ← h7, ho]
      refine ⟨h5, ⟨rfl, fun y => rfl, Or.inr ⟨_, _, rfl⟩⟩, fun r => ?_, fun r hr => absurd hr (Nat.not_lt_zero r), ?_⟩
      · simp [weight]
      · simp [← h6]
  refine ⟨⟨h1, fun i hi => (key i hi).1, fun i hi => (key i hi).2.1.1, fun i hi => (key i hi).2.1.2.1⟩, ?_,
    fun i hi => (key i hi).2.2.1, fun i hi => (key i hi).2.2.2.1, ?_⟩
  · intro e he
    obtain ⟨i, hi⟩ := List.getElem?_of_mem he
    have hlt := (List.getElem?_eq_some_iff.1 hi).1
    rw [h1] at hlt
    have := (key i hlt).2.1.2.2
    rw [nth_of hi] at this
    exact this
  have hB : B = rows es fun i r => dir es c y i r ^ 2 := by
    rw [h3, zero_add]
    exact sum_congr rfl fun i hi => (key i (mem_range.1 hi)).2.2.2.2
  refine ⟨hB, ?_⟩
  rcases attained es hp with h | ⟨i, e, x, b, h5, h6⟩
  · exact Or.inl h
  right
  have hi := (List.getElem?_eq_some_iff.1 h5).1
  have hi' := nth_of h5
  subst hi'
  rcases hs.kind i hi with ⟨o, w, ho, hn, hmi⟩ | ⟨m, Q, ho, hm, -⟩
  · rw [ho] at h6
    obtain ⟨w', a, b', f1, f2, -⟩ := Linear.C35_step v.exp o hn (opt := ⟨false, c, 1, size⟩) rfl hmi.le
      (fun j => y ((nth es i).vars.getD j 0)) w
    have f1' : Linear.prepareStep v.exp o ⟨false, c, 1, 1⟩ (nth es i).vars.length
        (fun j => y ((nth es i).vars.getD j 0)) w = .ok (w', some (a, b')) := f1
    simp only [Item.prepareStep, f1', Outcome.bind_ok, Outcome.ok.injEq, Prod.mk.injEq, Option.some.injEq] at h6
    obtain ⟨-, rfl, -⟩ := h6
    obtain ⟨r, hr, f3⟩ := f2.1
    have e1 : con (nth es i).item = o := by rw [ho]; rfl
    have e2 : weight (nth es i).item = w.W := by rw [ho]; rfl
    have e3 : a * a = dir es c y i r ^ 2 := by
      rw [f3]
      beta_reduce
      rw [abs_mul_abs_self, ← sq]
      unfold dir slack
      rw [e1, e2]
      rfl
    rw [hB, e3]
    exact Whole.term_le (u := dir es c y) (m := fun i => (con (nth es i).item).n) hi (by rw [e1]; exact hr)
  · rw [ho] at h6
    simp only [Item.prepareStep, Outcome.ok.injEq, Prod.mk.injEq, Option.some.injEq] at h6
    rw [← h6.2.1, hB, mul_zero]
    exact sum_nonneg fun i _ => sum_nonneg fun r _ => sq_nonneg _

theorem weight_pos {es : List (Entry ℝ)} {N : Nat} (hg : ∀ e ∈ es, Gap.Spec.Good e N) (hp : Polyhedral es) :
    ∀ i < es.length, ∀ r < (con (nth es i).item).n, 0 < weight (nth es i).item r := by
  intro i hi
  have := (hg _ (nth_mem hi)).2.2
  rcases hp _ (nth_mem hi) with ⟨o, w, ho⟩ | ⟨n, Q, ho⟩
  · rw [ho] at this ⊢
    exact this.2
  · rw [ho]
    exact fun r hr => absurd hr (Nat.not_lt_zero r)

/-- An iteration for linear inequalities and quadratic costs. -/
structure Iterated (es es' : List (Entry ℝ)) (N : Nat) (g : Nat → ℝ) (c : ℝ) (y : Nat → ℝ) (A B : ℝ) : Prop where
  shape : Shape es N
  alike : Alike es es'
  pos : ∀ i < es.length, ∀ r < (con (nth es i).item).n, 0 < weight (nth es i).item r
  newton : ∀ u < N, balance es (fun i r => weight (nth es i).item r * (1 + dir es c y i r)) u +
    gradients es y u = g u
  weight : ∀ i < es.length, ∀ r, weight (nth es' i).item r =
    weight (nth es i).item r * Real.exp (SolveLoop.stepSize A * dir es c y i r)
  bound : ∀ i < es.length, ∀ r < (con (nth es i).item).n, |dir es c y i r| ≤ A
  sum : B = rows es fun i r => dir es c y i r ^ 2
  attained : A = -1 ∨ A * A ≤ B

theorem iterated {v : Env ℝ} (hexp : v.exp = Real.exp) {p : Iteration.Setup ℝ} {duals : List (List Nat)}
    {x x' : Iteration.State ℝ} (hr : Ready p duals x) (hp : Polyhedral x.es) {k : ℝ} {st : Iteration.Step ℝ}
    (h : Iteration.iterate v p k x = .ok (some (st, x'))) (hu : Unregularized st) :
    Iterated x.es x'.es p.N (fun u => k * p.bs * p.b u) (k * p.cs) st.y st.norm st.normsqrd ∧ Polyhedral x'.es := by
  obtain ⟨-, -, -, -, es₁, -, -, -, -, -, -, -, h3, h4, -⟩ := Iteration.iterate_ok h
  have hs := shape_of hr hp
  obtain ⟨g1, g2, g3, g4, g5, g6⟩ := step hs h3 h4
  exact ⟨⟨hs, g1, weight_pos hr.good hp, newton hr hp h hu, hexp ▸ g3, g4, g5, g6⟩, g2⟩

/-! ### Quadratic convergence -/

theorem iterated_quadratic_of {es es' es'' : List (Entry ℝ)} {N : Nat} {g : Nat → ℝ} {c : ℝ} {y y' : Nat → ℝ}
    {A B A' B' a : ℝ} (h : Iterated es es' N g c y A B) (h' : Iterated es' es'' N g c y' A' B')
    (hsize : ∀ i < es.length, ∀ r < (con (nth es i).item).n, SolveLoop.stepSize A = 1) (hA : a ≤ 1)
    (hbound : ∀ i < es.length, ∀ r < (con (nth es i).item).n, |dir es c y i r| ≤ a) :
    B' ≤ 2 * a ^ 2 * B := by
  have ha := h.alike
  set D := dir es c y with hD
  set D' := dir es' c y' with hD'
  have hmono := monotone h.shape (x := fun i r => weight (nth es' i).item r * (1 + D' i r))
    (x' := fun i r => weight (nth es i).item r * (1 + D i r)) (y := y') (y' := y) c fun u hu => by
      rw [h.newton u hu, ← h'.newton u hu, ha.balance, ha.gradients]
  have hle : rows es (fun i r => 1 / 2 * D' i r ^ 2) ≤ rows es fun i r => D i r ^ 2 * D i r ^ 2 := by
    have key : rows es (fun i r => 1 / 2 * D' i r ^ 2 + (weight (nth es' i).item r * (1 + D' i r) -
        weight (nth es i).item r * (1 + D i r)) * (slack es c y' i r - slack es c y i r)) ≤
        rows es fun i r => D i r ^ 2 * D i r ^ 2 := by
      refine rows_le fun i hi r hr => ?_
      have hw := h.weight i hi r
      rw [hsize i hi r hr, one_mul] at hw
      have hpos := h.pos i hi r hr
      have hd : |D i r| ≤ 1 := (hbound i hi r hr).trans hA
      have hE := Real.exp_pos (D i r)
      have hw' : 0 < weight (nth es' i).item r := by rw [hw]; positivity
      have e1 : slack es c y i r = (1 - D i r) / weight (nth es i).item r := by
        rw [hD, dir]
        field_simp
        ring
      have e2 : slack es c y' i r = (1 - D' i r) / weight (nth es' i).item r := by
        rw [hD', dir, ha.slack c y' hi]
        field_simp
        ring
      set u := (1 + D i r) / Real.exp (D i r) - 1 with hu
      set w := 1 - (1 - D i r) * Real.exp (D i r) with hwv
      have b1 : u ^ 2 ≤ D i r ^ 2 * D i r ^ 2 := Whole.exp_step hd
      have b2 : w ^ 2 ≤ D i r ^ 2 * D i r ^ 2 := by
        have := Whole.exp_step (d := -D i r) (by rw [abs_neg]; exact hd)
        rw [Real.exp_neg, div_inv_eq_mul, neg_sq] at this
        calc w ^ 2 = ((1 + -D i r) * Real.exp (D i r) - 1) ^ 2 := by rw [hwv]; ring
          _ ≤ _ := this
      have e3 : (weight (nth es' i).item r * (1 + D' i r) - weight (nth es i).item r * (1 + D i r)) *
          (slack es c y' i r - slack es c y i r) = -((D' i r - u) * (D' i r - w)) := by
        rw [e1, e2, hw, hu, hwv]
        field_simp
        ring
      rw [e3]
      nlinarith [sq_nonneg (D' i r - u - w)]
    rw [rows_add] at key
    linarith
  rw [rows_mul] at hle
  have hle2 : rows es (fun i r => D i r ^ 2 * D i r ^ 2) ≤ a ^ 2 * B := by
    rw [h.sum, ← rows_mul]
    refine rows_le fun i hi r hr => mul_le_mul_of_nonneg_right ?_ (sq_nonneg _)
    have := hbound i hi r hr
    exact sq_le_sq' (neg_le_of_abs_le this) (le_of_abs_le this)
  have hB' : B' = rows es fun i r => D' i r ^ 2 := by
    rw [h'.sum, ha.rows]
  rw [hB']
  linarith

theorem iterated_quadratic {es es' es'' : List (Entry ℝ)} {N : Nat} {g : Nat → ℝ} {c : ℝ} {y y' : Nat → ℝ}
    {A B A' B' : ℝ} (h : Iterated es es' N g c y A B) (h' : Iterated es' es'' N g c y' A' B') (hA : A ≤ 1) :
    B' ≤ 2 * A ^ 2 * B := by
  refine iterated_quadratic_of h h' (fun i hi r hr => ?_) hA h.bound
  have h0 : 0 ≤ A := (abs_nonneg _).trans (h.bound i hi r hr)
  unfold SolveLoop.stepSize
  by_cases hz : A = 0
  · rw [if_pos hz]
  · rw [if_neg hz, if_pos]
    have : 0 < A := lt_of_le_of_ne h0 (Ne.symm hz)
    rw [lt_div_iff₀ (by positivity)]
    nlinarith

/-! ### Decrease of the distance -/

theorem iterated_decrease {es es' : List (Entry ℝ)} {N : Nat} {g : Nat → ℝ} {c : ℝ} {y z : Nat → ℝ} {A B : ℝ}
    (h : Iterated es es' N g c y A B) (hz : Central es N g c z) :
    distance es' c z ≤ distance es c z - SolveLoop.stepSize A / 10 * B := by
  have ha := h.alike
  set D := dir es c y with hD
  obtain ⟨ht, ht', -, htA, -⟩ := SolveLoop.C29_step_size A
  set t := SolveLoop.stepSize A with htdef
  have hmono := monotone h.shape (x := fun i r => weight (nth es i).item r * (1 + D i r))
    (x' := fun i r => 1 / slack es c z i r) (y := y) (y' := z) c fun u hu => by
      rw [h.newton u hu, hz.stationary u hu]
  -- the ratio of scaling points
  set ω : Nat → Nat → ℝ := fun i r => 1 / (weight (nth es i).item r * slack es c z i r) with hω
  have hωpos : ∀ i < es.length, ∀ r < (con (nth es i).item).n, 0 < ω i r := fun i hi r hr =>
    one_div_pos.2 (mul_pos (h.pos i hi r hr) (hz.interior i hi r hr))
  have h1 : rows es (fun i r => ω i r * (1 - D i r) + (1 + D i r) / ω i r - 2) ≤ -B := by
    have key : rows es (fun i r => (weight (nth es i).item r * (1 + D i r) - 1 / slack es c z i r) *
        (slack es c y i r - slack es c z i r)) = rows es fun i r => -1 * (D i r ^ 2) +
          -1 * (ω i r * (1 - D i r) + (1 + D i r) / ω i r - 2) := by
      refine rows_congr fun i hi r hr => ?_
      have hpos := h.pos i hi r hr
      have hsl := hz.interior i hi r hr
      have e1 : slack es c y i r = (1 - D i r) / weight (nth es i).item r := by
        rw [hD, dir]
        field_simp
        ring
      rw [e1, hω]
      field_simp
      ring
    rw [key, rows_add, rows_mul, rows_mul] at hmono
    have hB := h.sum
    linarith
  have h2 : distance es' c z - distance es c z = rows es fun i r =>
      ω i r * (Real.exp (-(t * D i r)) - 1) + (Real.exp (t * D i r) - 1) / ω i r := by
    have e1 : distance es' c z = rows es fun i r => ω i r * Real.exp (-(t * D i r)) + Real.exp (t * D i r) / ω i r - 2 := by
      have : distance es' c z = rows es' fun i r => weight (nth es' i).item r * slack es' c z i r +
        1 / (weight (nth es' i).item r * slack es' c z i r) - 2 := rfl
      rw [this, ha.rows]
      refine rows_congr fun i hi r hr => ?_
      have hpos := h.pos i hi r hr
      have hsl := hz.interior i hi r hr
      rw [ha.slack c z hi, h.weight i hi r, hω, Real.exp_neg]
      have := Real.exp_pos (t * D i r)
      field_simp
      ring
    have e2 : distance es c z = rows es fun i r => ω i r + 1 / ω i r - 2 := by
      refine rows_congr fun i hi r hr => ?_
      have hpos := h.pos i hi r hr
      have hsl := hz.interior i hi r hr
      rw [hω]
      field_simp
      ring
    rw [e1, e2, sub_eq_add_neg, ← neg_one_mul, ← rows_mul, ← rows_add]
    exact rows_congr fun i hi r hr => by ring
  have h3 : rows es (fun i r => ω i r * (Real.exp (-(t * D i r)) - 1) + (Real.exp (t * D i r) - 1) / ω i r) ≤
      rows es fun i r => (t + t ^ 2 / 3) * (ω i r * (1 - D i r) + (1 + D i r) / ω i r - 2) +
        (t + t ^ 2 / 3 - t / 10) * (D i r ^ 2) := by
    refine rows_le fun i hi r hr => component ht ht' ?_ (hωpos i hi r hr)
    have := h.bound i hi r hr
    have h4 : D i r ^ 2 ≤ A * A := by
      have := sq_le_sq' (neg_le_of_abs_le this) (le_of_abs_le this)
      linarith
    exact (mul_le_mul_of_nonneg_left h4 ht.le).trans htA
  rw [← h2, rows_add, rows_mul, rows_mul, ← h.sum] at h3
  have h5 : (t + t ^ 2 / 3) * rows es (fun i r => ω i r * (1 - D i r) + (1 + D i r) / ω i r - 2) ≤
      (t + t ^ 2 / 3) * -B := mul_le_mul_of_nonneg_left h1 (by positivity)
  linarith

/-- A step decreases the distance by a tenth of the smaller of two and the squared norm. -/
theorem iterated_min {es es' : List (Entry ℝ)} {N : Nat} {g : Nat → ℝ} {c : ℝ} {y z : Nat → ℝ} {A B : ℝ}
    (h : Iterated es es' N g c y A B) (hz : Central es N g c z) :
    distance es' c z ≤ distance es c z - min 2 B / 10 := by
  have h1 := iterated_decrease h hz
  obtain ⟨ht, ht', h2, -, -⟩ := SolveLoop.C29_step_size A
  have hB : 0 ≤ B := by
    rw [h.sum]
    exact sum_nonneg fun i _ => sum_nonneg fun r _ => sq_nonneg _
  suffices min 2 B ≤ SolveLoop.stepSize A * B by linarith
  by_cases hA : A * A ≤ 2
  · rw [h2.2 hA, one_mul]
    exact min_le_right _ _
  · have h3 : A * A ≤ B := by
      rcases h.attained with h3 | h3
      · rw [h3] at hA
        norm_num at hA
      · exact h3
    have h4 : SolveLoop.stepSize A * (A * A) = 2 := by
      unfold SolveLoop.stepSize
      have h0 : A ≠ 0 := by
        rintro rfl
        norm_num at hA
      have h5 : ¬ 1 < 2 / (A * A) := by
        rw [lt_div_iff₀ (mul_self_pos.2 h0)]
        linarith
      rw [if_neg h0, if_neg h5, div_mul_cancel₀]
      exact (mul_self_pos.2 h0).ne'
    have h5 := mul_le_mul_of_nonneg_left h3 ht.le
    exact (min_le_left _ _).trans (by linarith)

/-! ### Runs -/

theorem distance_nonneg {es : List (Entry ℝ)} {c : ℝ} {z : Nat → ℝ}
    (hw : ∀ i < es.length, ∀ r < (con (nth es i).item).n, 0 < weight (nth es i).item r)
    (hz : ∀ i < es.length, ∀ r < (con (nth es i).item).n, 0 < slack es c z i r) : 0 ≤ distance es c z := by
  refine sum_nonneg fun i hi => sum_nonneg fun r hr => ?_
  have h1 := hw i (mem_range.1 hi) r (mem_range.1 hr)
  have h2 := hz i (mem_range.1 hi) r (mem_range.1 hr)
  have h3 := mul_pos h1 h2
  set a := weight (nth es i).item r * slack es c z i r
  have : a + 1 / a - 2 = (a - 1) ^ 2 / a := by field_simp; ring
  rw [this]
  positivity

theorem iterated_nonneg {es es' : List (Entry ℝ)} {N : Nat} {g : Nat → ℝ} {c : ℝ} {y : Nat → ℝ} {A B : ℝ}
    (h : Iterated es es' N g c y A B) : 0 ≤ B := by
  rw [h.sum]
  exact sum_nonneg fun i _ => sum_nonneg fun r _ => sq_nonneg _

/-- The largest component is at most the Euclidean norm. -/
theorem iterated_norm {es es' : List (Entry ℝ)} {N : Nat} {g : Nat → ℝ} {c : ℝ} {y : Nat → ℝ} {A B : ℝ}
    (h : Iterated es es' N g c y A B) : A ^ 2 * B ≤ B ^ 2 := by
  rcases h.attained with h1 | h1
  · have : B = 0 := by
      rw [h.sum]
      refine sum_eq_zero fun i hi => sum_eq_zero fun r hr => ?_
      have := (abs_nonneg _).trans (h.bound i (mem_range.1 hi) r (mem_range.1 hr))
      rw [h1] at this
      norm_num at this
    rw [this]
    norm_num
  · nlinarith [iterated_nonneg h]

theorem iterated_le_one {es es' : List (Entry ℝ)} {N : Nat} {g : Nat → ℝ} {c : ℝ} {y : Nat → ℝ} {A B : ℝ}
    (h : Iterated es es' N g c y A B) (hB : B ≤ 1) : A ≤ 1 := by
  rcases h.attained with h1 | h1
  · rw [h1]; norm_num
  · nlinarith

theorem Alike.central {es es' : List (Entry ℝ)} (h : Alike es es') {N : Nat} {g : Nat → ℝ} {c : ℝ} {z : Nat → ℝ}
    (hz : Central es N g c z) : Central es' N g c z := by
  refine ⟨fun i hi r hr => ?_, fun u hu => ?_⟩
  · rw [h.length] at hi
    rw [h.con i hi] at hr
    rw [h.slack c z hi]
    exact hz.interior i hi r hr
  · rw [← hz.stationary u hu, h.gradients, h.balance]
    congr 1
    unfold Whole.Spec.balance
    refine sum_congr rfl fun i hi => ventry_congr (fun j _ => sum_congr rfl fun r _ => ?_) u
    beta_reduce
    rw [h.slack c z (mem_range.1 hi)]

theorem unregularized {v : Env ℝ} (hv : ∀ x, 0 ≤ x → SolveLoop.Spec.SqrtAt v.sqrt x) (he : ∀ x, 0 < v.exp x)
    {p : Iteration.Setup ℝ} {duals : List (List Nat)} {x x' : Iteration.State ℝ} {st : Iteration.Step ℝ}
    (hr : Ready p duals x) {k : ℝ} (h : Iteration.iterate v p k x = .ok (some (st, x'))) : Unregularized st := by
  obtain ⟨st₁, x₁, h1, h2⟩ := Iteration.iterate_total hv he hr k
  rw [h, Outcome.ok.injEq, Option.some.injEq, Prod.mk.injEq] at h1
  exact h1.1 ▸ h2

/-- All iterations with a fixed barrier parameter. -/
theorem run {v : Env ℝ} (hv : ∀ x, 0 ≤ x → SolveLoop.Spec.SqrtAt v.sqrt x) (hexp : v.exp = Real.exp)
    (hs : ∀ n, MatrixExp.Spec.Solves (v.solve n)) {p : Iteration.Setup ℝ} {duals : List (List Nat)}
    {X : Nat → Iteration.State ℝ} {ST : Nat → Iteration.Step ℝ} (hr : Ready p duals (X 0)) (hp : Polyhedral (X 0).es)
    {k : ℝ} (h : ∀ l, Iteration.iterate v p k (X l) = .ok (some (ST l, X (l + 1))))
    (l : Nat) :
    Alike (X 0).es (X l).es ∧ Polyhedral (X l).es ∧ Ready p duals (X l) ∧
    Iterated (X l).es (X (l + 1)).es p.N (fun u => k * p.bs * p.b u) (k * p.cs) (ST l).y (ST l).norm
      (ST l).normsqrd := by
  have he : ∀ x, 0 < v.exp x := fun x => hexp ▸ Real.exp_pos x
  have hd : ∀ {es : List (Entry ℝ)}, Polyhedral es → ∀ e ∈ es, ¬ DenseMatrix e.item := by
    intro es h e he hd
    rcases h e he with ⟨o, w, ho⟩ | ⟨n, Q, ho⟩ <;> rw [ho] at hd <;> exact hd
  induction l with
  | zero => exact ⟨Alike.refl _, hp, hr, (iterated hexp hr hp (h 0) (unregularized hv he hr (h 0))).1⟩
  | succ l ih =>
    obtain ⟨h1, h2, h3, h4⟩ := ih
    have h5 := (iterated hexp h3 h2 (h l) (unregularized hv he h3 (h l))).2
    obtain ⟨h6, -⟩ := Iteration.ready_next hv he hs h3 (h l) (unregularized hv he h3 (h l))
      fun e he' hd' => absurd hd' (hd h2 e he')
    exact ⟨h1.trans h4.alike, h5, h6, (iterated hexp h6 h5 (h (l + 1)) (unregularized hv he h6 (h (l + 1)))).1⟩

/-- A sequence that is squared. -/
theorem squared {q : Nat → ℝ} {l : Nat} (h0 : ∀ n, 0 ≤ q n) (hl : q l ≤ 1 / 4)
    (h : ∀ n, q n ≤ 1 → q (n + 1) ≤ 2 * q n ^ 2) (m : Nat) : q (l + m) ≤ 1 / 2 * (1 / 2) ^ 2 ^ m := by
  induction m with
  | zero => norm_num; linarith
  | succ m ih =>
    have h1 : (1 / 2 : ℝ) ^ 2 ^ m ≤ 1 := pow_le_one₀ (by norm_num) (by norm_num)
    refine (h (l + m) (by linarith)).trans ?_
    have h2 : q (l + m) ^ 2 ≤ (1 / 2 * (1 / 2) ^ 2 ^ m) ^ 2 := pow_le_pow_left₀ (h0 _) ih 2
    have h3 : (2 : ℝ) * (1 / 2 * (1 / 2) ^ 2 ^ m) ^ 2 = 1 / 2 * (1 / 2) ^ 2 ^ (m + 1) := by
      rw [mul_pow, ← pow_mul, ← pow_succ]
      ring
    linarith

/-- The bound only becomes better. -/
theorem squared_le {m n : Nat} (h : m ≤ n) : (1 / 2 : ℝ) ^ 2 ^ n ≤ (1 / 2) ^ 2 ^ m :=
  pow_le_pow_of_le_one (by norm_num) (by norm_num) (Nat.pow_le_pow_right (by norm_num) h)

end Verif.Centering
