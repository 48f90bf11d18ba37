import Verif.Lemmas.SearchGrow

/-!
# The point of the divergence (C91)

`ComputeMuFromDivergence` solves one linear system.  For linear inequalities its solution gives a dual feasible slack and,
multiplied by the squares of the scaling points, a primal feasible point.
-/

namespace Verif.Whole

open Finset Centering Centering.Spec Whole.Spec Iteration.Spec
open Verif.Dual

/-- The factorized system can be solved for all right-hand sides. -/
theorem factor_solves {v : Env ℝ} (hv : ∀ x, 0 ≤ x → SolveLoop.Spec.SqrtAt v.sqrt x) {p : Iteration.Setup ℝ}
    {duals : List (List Nat)} {x : Iteration.State ℝ} (hr : Ready p duals x) :
    ∃ f solver s, Iteration.factorize v p x = .ok f ∧ f.solver = some solver ∧
      KktError.Spec.Contributions v.sqrt x.es s ∧
      (∀ u, f.r.AW u = ((List.range x.es.length).map fun i => Sup.Spec.ventry ((x.es.map Entry.vars).getD i []) (s i).AW u).sum) ∧
      (∀ u, f.r.AQc u =
        ((List.range x.es.length).map fun i => Sup.Spec.ventry ((x.es.map Entry.vars).getD i []) (s i).AQc u).sum) ∧
      ∀ b : Nat → ℝ, ∃ y, solver.solveInPlace p.qr p.N b = .ok y ∧
        ∀ u < p.N, ∑ w ∈ range p.N, Sup.Spec.total (x.es.map Entry.vars) (fun i => (s i).G) u w * y w = b u := by
  obtain ⟨hb, hcomp, hno, hg, hu, hz, hd⟩ := hr
  obtain ⟨sys, h1, h2⟩ := Iteration.schurAll_total hv x.es hg hu hz
  have hnd : ∀ c ∈ x.es.map Entry.vars, c.Nodup := by
    intro c hc
    obtain ⟨e, he, rfl⟩ := List.mem_map.1 hc
    exact (hg e he).1
  obtain ⟨w, m, h3, h4, -⟩ := Sup.C69_assembled_system _ duals hnd (by simp [hb.length]) hno p.kkt hb.kkt hb.noShift
    p.N hb.occurs p.llt hb.llt hcomp p.qr (fun i => (Iteration.sysAt sys i).G) x.mat p.refine
  obtain ⟨solver, h5, h6⟩ := h4 (Iteration.posDef hg hd h2)
  obtain ⟨r, h7, -, -, h8, h9⟩ := Sup.C19_residuals p.N (x.es.map Entry.vars)
    (fun i => KktError.resid (Iteration.sysAt sys i)) hnd fun c hc u hu => (hb.occurs u).2 ⟨c, hc, hu⟩
  refine ⟨⟨sys, r, some solver⟩, solver, Iteration.sysAt sys, ?_, rfl, (Iteration.schurAll_spec _ h1 hz).2, fun u => ?_,
    fun u => ?_, h6⟩
  · unfold Iteration.factorize
    simp only [h1, h3, h7, hb.mode, h5, Outcome.bind_ok]
  · rw [h8 u, List.length_map]
    rfl
  · rw [h9 u, List.length_map]
    rfl

/-- There are no quadratic costs. -/
def NoCosts (es : List (Entry ℝ)) : Prop := ∀ e ∈ es, ∀ n Q, e.item ≠ .cost n Q

theorem polyhedral_linear {es : List (Entry ℝ)} (h : ∀ e ∈ es, ∃ o w, e.item = .linear o w) : Polyhedral es ∧ NoCosts es :=
  ⟨fun e he => Or.inl (h e he), fun e he n Q hx => by
    obtain ⟨o, w, ho⟩ := h e he
    rw [ho] at hx
    cases hx⟩

theorem gradients_none {es : List (Entry ℝ)} (hp : Polyhedral es) (hc : NoCosts es) (y : Nat → ℝ)
    (u : Nat) : gradients es y u = 0 := by
  unfold gradients
  refine sum_eq_zero fun i hi => ?_
  have hi := mem_range.1 hi
  rcases hp _ (nth_mem hi) with ⟨o, w, ho⟩ | ⟨n, Q, ho⟩
  · rw [ho]
    simp [gradient, Sup.Spec.ventry]
  · exact absurd ho (hc _ (nth_mem hi) _ _)

/-- The product of scaling point and slack at the point of the divergence. -/
noncomputable def lam (es : List (Entry ℝ)) (cs : ℝ) (y : Nat → ℝ) (i r : Nat) : ℝ :=
  weight (nth es i).item r * slack es cs y i r

/-- The point of the divergence. -/
theorem divergence_point {v : Env ℝ} (hv : ∀ x, 0 ≤ x → SolveLoop.Spec.SqrtAt v.sqrt x) {p : Iteration.Setup ℝ}
    {duals : List (List Nat)} {x : Iteration.State ℝ} (hr : Ready p duals x) {f : Iteration.Factored ℝ} {solver : Sup.Solver ℝ}
    (hf : Iteration.factorize v p x = .ok f) (hsol : f.solver = some solver) :
    ∃ y, solver.solveInPlace p.qr p.N (fun u => f.r.AQc u * p.cs - p.b u * p.bs) = .ok y ∧
      (Polyhedral x.es → NoCosts x.es →
        ∀ u < p.N, balance x.es (fun i r => weight (nth x.es i).item r * lam x.es p.cs y i r) u = p.bs * p.b u) := by
  obtain ⟨f', solver', s, hf', hsol', h1, h2, h3, h4⟩ := factor_solves hv hr
  rw [hf, Outcome.ok.injEq] at hf'
  subst hf'
  rw [hsol, Option.some.injEq] at hsol'
  subst hsol'
  obtain ⟨y, h5, h6⟩ := h4 fun u => f.r.AQc u * p.cs - p.b u * p.bs
  obtain ⟨y0, -, h7⟩ := h4 fun u => -2 * f.r.AW u
  refine ⟨y, h5, fun hp hc u hu => ?_⟩
  have hs := shape_of hr hp
  have hg : ∀ e ∈ x.es, e.vars.Nodup ∧ ∀ v ∈ e.vars, v < p.N := fun e he => ⟨(hr.good e he).1, (hr.good e he).2.1⟩
  have e1 := residual_rows hs h1 (0 * p.cs) y0 u
  rw [Gap.system_res (bs := p.bs) (b := p.b) hg (by rw [h7 u hu, h2 u]; ring), gradients_none hp hc] at e1
  have e2 := residual_rows hs h1 (1 * p.cs) (fun u => y u + y0 u) u
  rw [Gap.system_res (bs := -p.bs) (b := p.b) hg (by
    simp only [mul_add, sum_add_distrib]
    rw [h6 u hu, h7 u hu, h2 u, h3 u]
    ring), gradients_none hp hc] at e2
  rw [add_zero] at e1 e2
  have e3 : balance x.es (fun i r => weight (nth x.es i).item r * lam x.es p.cs y i r) u =
      balance x.es (fun i r => weight (nth x.es i).item r * (1 + dir x.es (0 * p.cs) y0 i r)) u -
        balance x.es (fun i r => weight (nth x.es i).item r * (1 + dir x.es (1 * p.cs) (fun u => y u + y0 u) i r)) u := by
    rw [← balance_sub]
    congr 1
    funext i r
    unfold lam dir slack
    simp only [mul_add, sum_add_distrib]
    ring
  rw [e3, e1, e2]
  ring

/-- Orthogonality: `a` is orthogonal to the rows, and `b` is in their range. -/
theorem rows_orthogonal {es : List (Entry ℝ)} {N : Nat} (hs : Shape es N) {a : Nat → Nat → ℝ}
    (ha : ∀ u < N, balance es a u = 0) (y : Nat → ℝ) :
    rows es (fun i r => a i r * ∑ j ∈ range (con (nth es i).item).m, (con (nth es i).item).A r j * y ((nth es i).vars.getD j 0)) =
      0 := by
  rw [← Centering.pairing hs]
  exact sum_eq_zero fun u hu => by rw [ha u (mem_range.1 hu), mul_zero]

theorem slack_sub (es : List (Entry ℝ)) (c : ℝ) (y y' : Nat → ℝ) (i r : Nat) :
    slack es c y i r - slack es c y' i r = ∑ j ∈ range (con (nth es i).item).m,
      (con (nth es i).item).A r j * (y' ((nth es i).vars.getD j 0) - y ((nth es i).vars.getD j 0)) := by
  unfold slack
  simp only [mul_sub, sum_sub_distrib]
  ring

theorem slack_mul (es : List (Entry ℝ)) (k c : ℝ) (y : Nat → ℝ) (i r : Nat) :
    slack es (k * c) (fun u => k * y u) i r = k * slack es c y i r := by
  unfold slack
  rw [mul_sub, mul_sum]
  congr 1
  · ring
  · exact sum_congr rfl fun j _ => by ring

/-- The Newton direction for `k` is as long as `k λ - 1`. -/
theorem direction_length {es : List (Entry ℝ)} {N : Nat} (hs : Shape es N) (hg : ∀ y u, gradients es y u = 0) {b : Nat → ℝ}
    {bs cs k : ℝ} {yd y : Nat → ℝ}
    (hd : ∀ u < N, balance es (fun i r => weight (nth es i).item r * lam es cs yd i r) u = bs * b u)
    (h : Newton es N (fun u => k * bs * b u) (k * cs) y) :
    rows es (fun i r => dir es (k * cs) y i r ^ 2) = rows es fun i r => (k * lam es cs yd i r - 1) ^ 2 := by
  have h1 : ∀ u < N, balance es (fun i r => weight (nth es i).item r * (1 + dir es (k * cs) y i r) -
      k * (weight (nth es i).item r * lam es cs yd i r)) u = 0 := by
    intro u hu
    rw [balance_sub es (fun i r => weight (nth es i).item r * (1 + dir es (k * cs) y i r))
      (fun i r => k * (weight (nth es i).item r * lam es cs yd i r)), balance_mul, hd u hu]
    have := h u hu
    rw [hg, add_zero] at this
    rw [this]
    ring
  have h2 := rows_orthogonal hs h1 fun u => y u - k * yd u
  rw [← sub_eq_zero, ← h2]
  rw [sub_eq_add_neg, ← neg_one_mul, ← rows_mul, ← rows_add]
  refine rows_congr fun i hi r hr => ?_
  rw [← slack_sub es (k * cs) (fun u => k * yd u) y i r, slack_mul]
  unfold dir lam
  ring

/-- The distance from the central point for `k`, weighted with `k λ`, is the square of the length of `k λ - 1`. -/
theorem weighted_distance {es : List (Entry ℝ)} {N : Nat} (hs : Shape es N) (hg : ∀ y u, gradients es y u = 0) {b : Nat → ℝ}
    {bs cs k : ℝ} {yd z : Nat → ℝ}
    (hw : ∀ i < es.length, ∀ r < (con (nth es i).item).n, 0 < weight (nth es i).item r)
    (hd : ∀ u < N, balance es (fun i r => weight (nth es i).item r * lam es cs yd i r) u = bs * b u)
    (hz : Central es N (fun u => k * bs * b u) (k * cs) z) :
    rows es (fun i r => k * lam es cs yd i r * (weight (nth es i).item r * slack es (k * cs) z i r +
      1 / (weight (nth es i).item r * slack es (k * cs) z i r) - 2)) =
        rows es fun i r => (k * lam es cs yd i r - 1) ^ 2 := by
  have h1 : ∀ u < N, balance es (fun i r => k * (weight (nth es i).item r * lam es cs yd i r) -
      1 / slack es (k * cs) z i r) u = 0 := by
    intro u hu
    rw [balance_sub es (fun i r => k * (weight (nth es i).item r * lam es cs yd i r)) (fun i r => 1 / slack es (k * cs) z i r),
      balance_mul, hd u hu]
    have := hz.stationary u hu
    rw [hg, add_zero] at this
    rw [this]
    ring
  have h2 := rows_orthogonal hs h1 fun u => z u - k * yd u
  rw [eq_comm, ← sub_eq_zero, ← h2]
  rw [sub_eq_add_neg, ← neg_one_mul, ← rows_mul, ← rows_add]
  refine rows_congr fun i hi r hr => ?_
  have h3 := hw i hi r hr
  have h4 := hz.interior i hi r hr
  rw [← slack_sub es (k * cs) (fun u => k * yd u) z i r, slack_mul]
  unfold lam
  field_simp
  ring

/-- The bound of the divergence: the distance from the central point. -/
theorem distance_le {es : List (Entry ℝ)} {N : Nat} (hs : Shape es N) (hg : ∀ y u, gradients es y u = 0) {b : Nat → ℝ}
    {bs cs k δ : ℝ} {yd z : Nat → ℝ}
    (hw : ∀ i < es.length, ∀ r < (con (nth es i).item).n, 0 < weight (nth es i).item r)
    (hd : ∀ u < N, balance es (fun i r => weight (nth es i).item r * lam es cs yd i r) u = bs * b u)
    (hz : Central es N (fun u => k * bs * b u) (k * cs) z)
    (hδ : ∀ i < es.length, ∀ r < (con (nth es i).item).n, |k * lam es cs yd i r - 1| ≤ δ) :
    (1 - δ) * distance es (k * cs) z ≤ rows es fun i r => (k * lam es cs yd i r - 1) ^ 2 := by
  rw [← weighted_distance hs hg hw hd hz]
  have h1 : distance es (k * cs) z = rows es fun i r => weight (nth es i).item r * slack es (k * cs) z i r +
      1 / (weight (nth es i).item r * slack es (k * cs) z i r) - 2 := rfl
  rw [h1, ← rows_mul]
  refine rows_le fun i hi r hr => mul_le_mul_of_nonneg_right ?_ ?_
  · linarith [(abs_le.1 (hδ i hi r hr)).1]
  · have h2 : 0 < weight (nth es i).item r * slack es (k * cs) z i r := mul_pos (hw i hi r hr) (hz.interior i hi r hr)
    have h3 : weight (nth es i).item r * slack es (k * cs) z i r +
        1 / (weight (nth es i).item r * slack es (k * cs) z i r) - 2 =
        (weight (nth es i).item r * slack es (k * cs) z i r - 1) ^ 2 / (weight (nth es i).item r * slack es (k * cs) z i r) := by
      have := h2.ne'
      generalize weight (nth es i).item r * slack es (k * cs) z i r = a at *
      field_simp
      ring
    rw [h3]
    positivity

end Verif.Whole
