import Verif.Lemmas.MatrixDecrease
import Verif.Spec.Equations

/-!
# Lemmas for C100: centering subject to equations
-/

namespace Verif.MatrixCentering

open Finset Verif.Dual Gap Gap.Spec
open Whole.Spec (nth)
open Spec (Inside force separation distance Short RealCones unknowns CommonUpdate Equations reaction CentralOn)

/-- Constraints whose direction is defined can be used, except for equations. -/
theorem usable_of_prepare {v : Env ℝ} (hv : ∀ x, 0 ≤ x → SolveLoop.Spec.SqrtAt v.sqrt x)
    (ht : Lmi.Spec.TriEigenvalues v.tri) {vars : List Nat} {N : Nat} {x x' : Item ℝ} (hg : Gap.Spec.Good ⟨vars, x⟩ N)
    {c b : ℝ} {y : Nat → ℝ} {n : Option ℝ} (hp : x.prepareStep v c vars.length y = .ok (x', n, b)) :
    Iteration.Spec.Usable x ∨ ∃ o, x = .equality o := by
  have hg' := hg.2.2
  cases x with
  | linear o w =>
    left
    simp only at hg'
    by_contra h0
    have h0 : o.n = 0 := Nat.eq_zero_of_not_pos h0
    simp only [Item.prepareStep, Linear.prepareStep, Linear.negativeSlack, Bool.false_eq_true, if_false,
      hg'.1, lt_irrefl, Outcome.bind_ok, h0, if_true, Outcome.bind_ub, reduceCtorEq] at hp
  | lmi m o w =>
    left
    by_contra h0
    have h0 : m = 0 := Nat.eq_zero_of_not_pos h0
    subst h0
    simp [Item.prepareStep, Lmi.prepareStep, Lmi.negativeSlack_eq o c hg'.1.le y, Lmi.argmaxDiag] at hp
  | hermitian d m hd o w =>
    left
    obtain ⟨-, C, -, h, -⟩ := hermitian_direction hv ht hg'.2.1 hg'.2.2.1 hg'.2.2.2 hp
    exact ⟨C, h⟩
  | octonion m o w => exact Or.inl trivial
  | soc o w => exact Or.inl trivial
  | quad o w => exact Or.inl trivial
  | equality o => exact Or.inr ⟨o, rfl⟩
  | cost n Q => exact Or.inl trivial

/-- A step of an equation. -/
theorem equality_step {v : Env ℝ} {o : Equality.Con ℝ} {len : Nat} {c t b : ℝ} {y : Nat → ℝ} {x' x'' : Item ℝ}
    {n : Option ℝ} (hp : (Item.equality o).prepareStep v c len y = .ok (x', n, b)) (hx : x'.takeStep v t = .ok x'') :
    b = 0 ∧ ∃ l, x'' = .equality { o with lambda := l } := by
  simp only [Item.prepareStep, SolveLoop.bind_eq_ok, Outcome.ok.injEq, Prod.mk.injEq, Equality.prepareStep] at hp
  obtain ⟨q, h1, rfl, -, rfl⟩ := hp
  split_ifs at h1
  rw [Outcome.ok.injEq] at h1
  subst h1
  simp only [Item.takeStep, Outcome.ok.injEq] at hx
  exact ⟨rfl, _, hx.symm⟩

/-- Two solutions of the same equations. -/
theorem equality_pair {p q : Nat} {A : Nat → Nat → ℝ} {d l : Nat → ℝ}
    (h : ∀ r < p, ∑ j ∈ range q, A r j * d j = 0) :
    ∑ j ∈ range q, d j * ∑ r ∈ range p, A r j * l r = 0 := by
  have e : ∀ j ∈ range q, d j * ∑ r ∈ range p, A r j * l r = ∑ r ∈ range p, l r * (A r j * d j) := fun j _ => by
    rw [mul_sum]
    exact sum_congr rfl fun r _ => by ring
  rw [sum_congr rfl e, sum_comm]
  exact sum_eq_zero fun r hr => by rw [← mul_sum, h r (mem_range.1 hr), mul_zero]

theorem force_equality (o : Equality.Con ℝ) (len : Nat) (c : ℝ) (y : Nat → ℝ) (j : Nat) :
    force (.equality o) len c y j = 0 := by
  simp [force, ConeCentering.Spec.cells, Centering.Spec.gradient]

/-- Two iterations of any constraint, equations included. -/
theorem item_quadratic_on {v : Env ℝ} (hv : ∀ x, 0 ≤ x → SolveLoop.Spec.SqrtAt v.sqrt x) (hexp : v.exp = Real.exp)
    (ht : Lmi.Spec.TriEigenvalues v.tri) (hso : ∀ n, MatrixExp.Spec.Solves (v.solve n)) {vars : List Nat} {N : Nat}
    {x x' x'' z : Item ℝ} (hg : Gap.Spec.Good ⟨vars, x⟩ N)
    (hg' : Gap.Spec.Good ⟨vars, x''⟩ N) {c b b' : ℝ} {y y' : Nat → ℝ}
    {n n' : Option ℝ} (hp : x.prepareStep v c vars.length y = .ok (x', n, b)) (hb : b ≤ 1)
    (hx : x'.takeStep v 1 = .ok x'') (hp' : x''.prepareStep v c vars.length y' = .ok (z, n', b'))
    {s₀ s₀' s s' : Schur.Sys ℝ} (hr : s₀.rows = vars.length) (hs : x.schur v.sqrt s₀ = .ok s)
    (hr' : s₀'.rows = vars.length) (hs' : x''.schur v.sqrt s₀' = .ok s')
    (hm : ∀ o, x = .equality o → ∀ r < o.p, res s vars.length c y (o.q + r) = 0)
    (hm' : ∀ o, x'' = .equality o → ∀ r < o.p, res s' vars.length c y' (o.q + r) = 0) :
    Quadratic vars.length c y y' s s' b b' := by
  by_cases heq : ∃ o, x = .equality o
  · obtain ⟨o, rfl⟩ := heq
    obtain ⟨rfl, l, rfl⟩ := equality_step hp hx
    have hb' : b' = 0 := by
      simp only [Item.prepareStep, SolveLoop.bind_eq_ok, Outcome.ok.injEq, Prod.mk.injEq, Equality.prepareStep] at hp'
      obtain ⟨q, h1, -, -, rfl⟩ := hp'
      split_ifs at h1
      rw [Outcome.ok.injEq] at h1
      subst h1
      rfl
    subst hb'
    obtain ⟨-, -, h1, h2⟩ := hg
    simp only at h2
    obtain ⟨e1, e2⟩ := equality_res (v := v) h1 h2 hr hs (kc := c) y
    obtain ⟨e3, e4⟩ := equality_res (v := v) (o := { o with lambda := l }) h1 h2 hr' hs' (kc := c) y'
    have hd : ∀ r < o.p, ∑ j ∈ range o.q, o.A r j * (y' j - y j) = 0 := fun r hr => by
      have f1 := e2 r hr
      rw [hm o rfl r hr] at f1
      have f2 := e4 r hr
      have f3 := hm' _ rfl r hr
      simp only at f2 f3
      rw [f3] at f2
      simp only [mul_sub, sum_sub_distrib]
      linarith
    unfold Quadratic
    have h0 : ∑ j ∈ range vars.length, (y' j - y j) * (res s' vars.length c y' j - res s vars.length c y j) = 0 := by
      rw [← h2, sum_range_add]
      have g1 : ∑ x ∈ range o.p, (y' (o.q + x) - y (o.q + x)) *
          (res s' (o.q + o.p) c y' (o.q + x) - res s (o.q + o.p) c y (o.q + x)) = 0 :=
        sum_eq_zero fun r hr => by
          have f1 := hm o rfl r (mem_range.1 hr)
          have f2 := hm' _ rfl r (mem_range.1 hr)
          simp only at f2
          rw [h2, f1, f2, sub_self, mul_zero]
      rw [g1, add_zero, ← equality_pair (l := fun r => y' (o.q + r) - y (o.q + r)) hd]
      refine sum_congr rfl fun j hj => ?_
      have f1 := e1 j (mem_range.1 hj)
      have f2 := e3 j (mem_range.1 hj)
      simp only at f2
      rw [h2, f1, f2, ← sum_sub_distrib]
      congr 1
      exact sum_congr rfl fun r _ => by ring
    rw [h0]
    norm_num
  · have hu : Iteration.Spec.Usable x := (usable_of_prepare hv ht hg hp).resolve_right heq
    have heq' : ¬ ∃ o, x'' = .equality o := fun ⟨o, h⟩ => by
      obtain ⟨-, h2⟩ := Gap.item_step (A := 0) hv (fun x => hexp ▸ Real.exp_pos x) hso hg hp
        (fun m o w h => by
          subst h
          exact absurd h (by
            simp only [Item.prepareStep, SolveLoop.bind_eq_ok, Outcome.ok.injEq, Prod.mk.injEq] at hp
            obtain ⟨q, -, h1, -⟩ := hp
            rw [← h1] at hx
            simp only [Item.takeStep, Outcome.ok.injEq] at hx
            rw [← hx]
            simp)) (by
          have : SolveLoop.stepSize (0 : ℝ) = 1 := by simp [SolveLoop.stepSize]
          rw [this]
          exact hx)
      obtain ⟨o', h3, -⟩ := h2.2.2.2 o h
      exact heq ⟨o', h3⟩
    have hu' : Iteration.Spec.Usable x'' := (usable_of_prepare hv ht hg' hp').resolve_right heq'
    exact item_quadratic hv hexp ht hso hg hu hg' hu' hp hb hx hp' hr hs hr' hs'

/-- The multipliers of the equations of a system. -/
theorem multipliers {N : Nat} {y b : Nat → ℝ} {k bs cs : ℝ} {es : List (Entry ℝ)}
    (hsep : Separate es b) (hg : ∀ e ∈ es, Gap.Spec.Good e N) {s : Nat → Schur.Sys ℝ}
    (hy : ∀ u < N, ∑ v ∈ range N, Sup.Spec.total (es.map Entry.vars) (fun i => (s i).G) u v * y v =
      k * (bs * b u + cs * ((List.range es.length).map fun i =>
        Sup.Spec.ventry ((es.map Entry.vars).getD i []) (s i).AQc u).sum) -
      2 * ((List.range es.length).map fun i =>
        Sup.Spec.ventry ((es.map Entry.vars).getD i []) (s i).AW u).sum) {i : Nat} {e : Entry ℝ}
    (he : es[i]? = some e) (o : Equality.Con ℝ) (ho : e.item = .equality o) (r : Nat) (hr : r < o.p) :
    res (s i) e.vars.length (k * cs) (fun j => y (e.vars.getD j 0)) (o.q + r) = 0 := by
  have hg2 : ∀ e ∈ es, e.vars.Nodup ∧ ∀ v ∈ e.vars, v < N := fun e he => ⟨(hg e he).1, (hg e he).2.1⟩
  have h1 := (hg e (List.mem_of_getElem? he)).2.2
  rw [ho] at h1
  exact multiplier_res hsep hg2 (fun u hu => system_res hg2 (hy u hu)) he ho h1.2 hr

/-- Two iterations. -/
theorem program_quadratic_on {v : Env ℝ} (hv : ∀ x, 0 ≤ x → SolveLoop.Spec.SqrtAt v.sqrt x) (hexp : v.exp = Real.exp)
    (ht : Lmi.Spec.TriEigenvalues v.tri) (hso : ∀ n, MatrixExp.Spec.Solves (v.solve n)) {N : Nat}
    {es es' es'' l : List (Entry ℝ)} (hg : ∀ e ∈ es, Gap.Spec.Good e N)
    (hg' : ∀ e ∈ es'', Gap.Spec.Good e N) {k bs cs A B A' B' : ℝ}
    {b y y' : Nat → ℝ} (hsep : Separate es b) (hsep' : Separate es'' b)
    (hp : Dual.prepareStep v (k * cs) N y es = .ok (es', A, B)) (hB : B ≤ 1)
    (hx : Dual.takeStep v (SolveLoop.stepSize A) es' = .ok es'')
    (hp' : Dual.prepareStep v (k * cs) N y' es'' = .ok (l, A', B'))
    (hy : Gap.Spec.System v.sqrt N b k bs cs es y) (hy' : Gap.Spec.System v.sqrt N b k bs cs es'' y') :
    B' ≤ 2 * B ^ 2 := by
  obtain ⟨-, hone, β, hβ0, hBβ, hβ⟩ := program_direction hv hexp ht hg hp
  obtain ⟨-, -, β', -, hBβ', hβ'⟩ := program_direction hv hexp ht hg' hp'
  rw [step_one (hone hB).1] at hx
  obtain ⟨hlen, hnth⟩ := Whole.forall₂_nth (prepare_take es hp hx)
  have hvars : es''.map Entry.vars = es.map Entry.vars := Iteration.take_vars hp hx
  have hle : ∀ i < es.length, β i ≤ B := fun i hi => by
    rw [hBβ]
    exact single_le_sum (f := β) (fun j hj => hβ0 j (mem_range.1 hj)) (mem_range.2 hi)
  obtain ⟨s₀, s, h0, hs, hy⟩ := hy
  obtain ⟨s₀', s', h0', hs', hy'⟩ := hy'
  have hp1 := paired (z := fun u => y' u - y u) (fun e he => ⟨(hg e he).1, (hg e he).2.1⟩) hy
  have hp2 := paired (z := fun u => y' u - y u) (fun e he => ⟨(hg' e he).1, (hg' e he).2.1⟩) hy'
  rw [hlen, hvars] at hp2
  have hL : ∀ i < es.length, (es.map Entry.vars).getD i [] = (nth es i).vars := fun i hi => by
    rw [List.getD_eq_getElem?_getD, List.getElem?_map, Whole.nth_get hi]
    rfl
  have hitem : ∀ i ∈ range es.length, 1 / 2 * β' i -
      (∑ j ∈ range ((es.map Entry.vars).getD i []).length,
        (y' (((es.map Entry.vars).getD i []).getD j 0) - y (((es.map Entry.vars).getD i []).getD j 0)) *
          res (s' i) ((es.map Entry.vars).getD i []).length (k * cs)
            (fun j => y' (((es.map Entry.vars).getD i []).getD j 0)) j -
      ∑ j ∈ range ((es.map Entry.vars).getD i []).length,
        (y' (((es.map Entry.vars).getD i []).getD j 0) - y (((es.map Entry.vars).getD i []).getD j 0)) *
          res (s i) ((es.map Entry.vars).getD i []).length (k * cs)
            (fun j => y (((es.map Entry.vars).getD i []).getD j 0)) j) ≤ β i ^ 2 := by
    intro i hi
    have hi := mem_range.1 hi
    have hi'' : i < es''.length := hlen.symm ▸ hi
    rw [hL i hi]
    obtain ⟨hv1, x', n, b₁, hq1, hq2⟩ := hnth i hi
    obtain ⟨x₁, n₁, hq3⟩ := hβ i _ (Whole.nth_get hi)
    rw [hq1, Outcome.ok.injEq, Prod.mk.injEq, Prod.mk.injEq] at hq3
    obtain ⟨rfl, rfl, rfl⟩ := hq3
    obtain ⟨x₂, n₂, hq4⟩ := hβ' i _ (Whole.nth_get hi'')
    have m1 := multipliers hsep hg hy (Whole.nth_get hi)
    have m2 := multipliers hsep' hg' hy' (Whole.nth_get hi'')
    have g2 : Gap.Spec.Good ⟨(nth es i).vars, (nth es'' i).item⟩ N := by
      have := hg' _ (Whole.nth_mem hi'')
      rw [← hv1]
      exact this
    have r2 := h0' i _ (Whole.nth_get hi'')
    rw [hv1] at hq4 m2 r2
    have := item_quadratic_on (vars := (nth es i).vars) hv hexp ht hso (hg _ (Whole.nth_mem hi)) g2 hq1
      ((hle i hi).trans hB) hq2 hq4 (h0 i _ (Whole.nth_get hi))
      (hs i _ (Whole.nth_get hi)) r2 (hs' i _ (Whole.nth_get hi'')) m1 m2
    unfold Quadratic at this
    simp only [mul_sub, sum_sub_distrib] at this ⊢
    exact this
  have hsum := sum_le_sum hitem
  rw [sum_sub_distrib, sum_sub_distrib, hp1, hp2, sub_self, sub_zero, ← mul_sum, ← hlen, ← hBβ', hlen] at hsum
  have hsq : ∑ i ∈ range es.length, β i ^ 2 ≤ B ^ 2 := by
    have : ∑ i ∈ range es.length, β i ^ 2 ≤ ∑ i ∈ range es.length, B * β i :=
      sum_le_sum fun i hi => by
        rw [sq]
        exact mul_le_mul_of_nonneg_right (hle i (mem_range.1 hi)) (hβ0 i (mem_range.1 hi))
    rw [← mul_sum, ← hBβ, ← sq] at this
    exact this
  linarith

/-! ### Steps -/

/-- The number `κ` belongs to the update of the constraint; equations have no update. -/
def UsesOn (κ : ℝ) (x : Item ℝ) : Prop := Uses κ x ∨ 0 ≤ κ ∧ ∃ o, x = .equality o

theorem commonUpdate_iff (es : List (Entry ℝ)) : CommonUpdate es ↔ ∃ κ, ∀ e ∈ es, UsesOn κ e.item := by
  constructor
  · rintro (h | h)
    · exact ⟨1 / 3, fun e he => Or.inl (Or.inl ⟨rfl, h e he⟩)⟩
    · refine ⟨5 / 16, fun e he => ?_⟩
      rcases h e he with h | h | h
      · exact Or.inl (Or.inr ⟨rfl, Or.inl h⟩)
      · exact Or.inl (Or.inr ⟨rfl, Or.inr h⟩)
      · exact Or.inr ⟨by norm_num, h⟩
  · rintro ⟨κ, h⟩
    by_cases hκ : κ = 5 / 16
    · refine Or.inr fun e he => ?_
      rcases h e he with (⟨h, -⟩ | ⟨-, h | h⟩) | ⟨-, h⟩
      · rw [hκ] at h
        norm_num at h
      · exact Or.inl h
      · exact Or.inr (Or.inl h)
      · exact Or.inr (Or.inr h)
    · refine Or.inl fun e he d m hd o w h' => ?_
      rcases h e he with (⟨-, h⟩ | ⟨h, -⟩) | ⟨-, o', h⟩
      · exact h d m hd o w h'
      · exact hκ h
      · rw [h'] at h
        cases h

/-- What is shown of a step of a constraint. -/
structure DecreaseOn (κ : ℝ) (x x'' : Item ℝ) (len : Nat) (c t : ℝ) (y z : Nat → ℝ) (s : Schur.Sys ℝ) (b : ℝ) : Prop where
  closer : separation x'' len c z ≤ separation x len c z + (t + κ * t ^ 2) *
    ∑ j ∈ range len, (y j - z j) * (res s len c y j - (force x len c z j + reaction x z j)) - t / 10 * b
  inside : ∀ u, Inside x'' len c u ↔ Inside x len c u
  force : ∀ u, force x'' len c u = force x len c u
  reaction : ∀ u, reaction x'' u = reaction x u
  equation : ∀ o'', x'' = .equality o'' → ∃ o, x = .equality o ∧ o''.p = o.p ∧ o''.q = o.q ∧ o''.A = o.A ∧ o''.b = o.b

theorem reaction_eq {x : Item ℝ} (h : ¬ ∃ o, x = .equality o) (z : Nat → ℝ) (j : Nat) : reaction x z j = 0 := by
  cases x with
  | equality o => exact (h ⟨o, rfl⟩).elim
  | _ => rfl

theorem item_decrease_on {v : Env ℝ} (hv : ∀ x, 0 ≤ x → SolveLoop.Spec.SqrtAt v.sqrt x) (hexp : v.exp = Real.exp)
    (htri : Lmi.Spec.TriEigenvalues v.tri) (hso : ∀ n, MatrixExp.Spec.Solves (v.solve n)) {vars : List Nat} {N : Nat}
    {x x' x'' : Item ℝ} (hg : Gap.Spec.Good ⟨vars, x⟩ N)
    {κ : ℝ} (hκ : UsesOn κ x) {c t b A : ℝ} {y z : Nat → ℝ}
    {n : Option ℝ} (hp : x.prepareStep v c vars.length y = .ok (x', n, b)) (ht : 0 < t) (ht' : t ≤ 1)
    (hA : t * (A * A) ≤ 2) (hn : ∀ n', n = some n' → n' ≤ A) (hb : Short c t y x) (hx : x'.takeStep v t = .ok x'')
    (hz : Inside x vars.length c z)
    {s₀ s : Schur.Sys ℝ} (hr : s₀.rows = vars.length) (hs : x.schur v.sqrt s₀ = .ok s)
    (hm : ∀ o, x = .equality o → ∀ r < o.p, res s vars.length c y (o.q + r) = 0)
    (he : ∀ o, x = .equality o → ∀ r < o.p, ∑ j ∈ range o.q, o.A r j * z j = c * o.b r) :
    DecreaseOn κ x x'' vars.length c t y z s b ∧ UsesOn κ x'' ∧ Gap.Spec.Good ⟨vars, x''⟩ N ∧ SameData x x'' := by
  by_cases heq : ∃ o, x = .equality o
  · obtain ⟨o, rfl⟩ := heq
    obtain ⟨rfl, l, rfl⟩ := equality_step hp hx
    obtain ⟨g1, g2, h1, h2⟩ := hg
    simp only at h2
    obtain ⟨e1, e2⟩ := equality_res (v := v) h1 h2 hr hs (kc := c) y
    have hd : ∀ r < o.p, ∑ j ∈ range o.q, o.A r j * (y j - z j) = 0 := fun r hr => by
      have f1 := e2 r hr
      rw [hm o rfl r hr] at f1
      have f2 := he o rfl r hr
      simp only [mul_sub, sum_sub_distrib]
      linarith
    have hκ0 : 0 ≤ κ := by
      rcases hκ with (⟨h, -⟩ | ⟨h, -⟩) | ⟨h, -⟩
      · rw [h]
        norm_num
      · rw [h]
        norm_num
      · exact h
    refine ⟨⟨?_, fun u => Iff.rfl, fun u => rfl, fun u => rfl, fun o'' h => ?_⟩, Or.inr ⟨hκ0, _, rfl⟩, ⟨g1, g2, h1, h2⟩,
      fun z => Iff.rfl, fun z => rfl, rfl, fun o' h => by cases h; exact ⟨o, rfl, rfl, rfl⟩⟩
    · have h0 : ∑ j ∈ range vars.length, (y j - z j) * (res s vars.length c y j -
          (force (.equality o) vars.length c z j + reaction (.equality o) z j)) = 0 := by
        rw [← h2, sum_range_add]
        have f1 : ∑ r ∈ range o.p, (y (o.q + r) - z (o.q + r)) * (res s (o.q + o.p) c y (o.q + r) -
            (force (.equality o) (o.q + o.p) c z (o.q + r) + reaction (.equality o) z (o.q + r))) = 0 :=
          sum_eq_zero fun r hr => by
            have f2 : reaction (.equality o) z (o.q + r) = 0 := if_neg (by omega)
            rw [force_equality, f2, h2, hm o rfl r (mem_range.1 hr)]
            ring
        rw [f1, add_zero, ← equality_pair (l := fun r => y (o.q + r) - z (o.q + r)) hd]
        refine sum_congr rfl fun j hj => ?_
        have f2 : reaction (.equality o) z j = ∑ r ∈ range o.p, o.A r j * z (o.q + r) := if_pos (mem_range.1 hj)
        have f3 := e1 j (mem_range.1 hj)
        rw [force_equality, f2, h2, f3, zero_add, ← sum_sub_distrib]
        congr 1
        exact sum_congr rfl fun r _ => by ring
      rw [h0]
      have f4 : separation (.equality { o with lambda := l }) vars.length c z = separation (.equality o) vars.length c z :=
        rfl
      rw [f4]
      linarith
    · cases h
      exact ⟨o, rfl, rfl, rfl, rfl, rfl⟩
  · have hu : Iteration.Spec.Usable x := (usable_of_prepare hv htri hg hp).resolve_right heq
    have hκ' : Uses κ x := hκ.resolve_right fun h => heq h.2
    obtain ⟨h1, h2, h3, h4⟩ := item_decrease hv hexp htri hso hg hu hκ' hp ht ht' hA hn hb hx hz hr hs
    have heq'' : ¬ ∃ o, x'' = .equality o := fun ⟨o'', h⟩ => by
      obtain ⟨o, h5, -⟩ := h4.2.2.2 o'' h
      exact heq ⟨o, h5⟩
    refine ⟨⟨?_, h1.inside, h1.force, fun u => ?_, fun o'' h => absurd ⟨o'', h⟩ heq''⟩, Or.inl h2, h3, h4⟩
    · simp only [reaction_eq heq, add_zero]
      exact h1.closer
    · funext j
      rw [reaction_eq heq, reaction_eq heq'']

/-- The distance of a constraint is nonnegative. -/
theorem separation_nonneg_on {vars : List Nat} {N : Nat} {x : Item ℝ} (hg : Gap.Spec.Good ⟨vars, x⟩ N)
    (hu : Iteration.Spec.Usable x ∨ ∃ o, x = .equality o) {c : ℝ} {z : Nat → ℝ}
    (hz : Inside x vars.length c z) : 0 ≤ separation x vars.length c z := by
  rcases hu with hu | ⟨o, rfl⟩
  · exact separation_nonneg hg hu hz
  · simp [separation, ConeCentering.Spec.cells]

/-- What is kept and gained by an iteration. -/
structure CloserOn (N : Nat) (g : Nat → ℝ) (c : ℝ) (z : Nat → ℝ) (t B : ℝ) (es es'' : List (Entry ℝ)) : Prop where
  good : ∀ e ∈ es'', Gap.Spec.Good e N
  same : SameProg es es''
  update : CommonUpdate es''
  central : CentralOn es'' N g c z
  closer : distance es'' c z ≤ distance es c z - t / 10 * B
  nonneg : 0 ≤ distance es c z

theorem program_decrease_on {v : Env ℝ} (hv : ∀ x, 0 ≤ x → SolveLoop.Spec.SqrtAt v.sqrt x) (hexp : v.exp = Real.exp)
    (htri : Lmi.Spec.TriEigenvalues v.tri) (hso : ∀ n, MatrixExp.Spec.Solves (v.solve n)) {N : Nat}
    {es es' es'' : List (Entry ℝ)} (hg : ∀ e ∈ es, Gap.Spec.Good e N)
    (hcom : CommonUpdate es) {k bs cs A B : ℝ} {b y z : Nat → ℝ} (hsep : Separate es b)
    (hp : Dual.prepareStep v (k * cs) N y es = .ok (es', A, B))
    (hx : Dual.takeStep v (SolveLoop.stepSize A) es' = .ok es'')
    (hb : ∀ e ∈ es, Short (k * cs) (SolveLoop.stepSize A) (unknowns e y) e.item)
    (hy : Gap.Spec.System v.sqrt N b k bs cs es y) (hz : CentralOn es N (fun u => k * bs * b u) (k * cs) z) :
    CloserOn N (fun u => k * bs * b u) (k * cs) z (SolveLoop.stepSize A) B es es'' := by
  obtain ⟨ht, ht', -, htA, -⟩ := SolveLoop.C29_step_size A
  set t := SolveLoop.stepSize A with htdef
  obtain ⟨κ, hcom⟩ := (commonUpdate_iff es).1 hcom
  obtain ⟨hlen, hnth⟩ := Whole.forall₂_nth (prepare_take es hp hx)
  obtain ⟨-, β, hB, hβ⟩ := prepareLoop_inv es hp
  rw [zero_add] at hB
  obtain ⟨s₀, s, h0, hs, hy⟩ := hy
  have hp1 := paired (z := fun u => y u - z u) (fun e he => ⟨(hg e he).1, (hg e he).2.1⟩) hy
  have hL : ∀ i < es.length, (es.map Entry.vars).getD i [] = (nth es i).vars := fun i hi => by
    rw [List.getD_eq_getElem?_getD, List.getElem?_map, Whole.nth_get hi]
    rfl
  have hitem : ∀ i < es.length, (nth es'' i).vars = (nth es i).vars ∧
      DecreaseOn κ (nth es i).item (nth es'' i).item (nth es i).vars.length (k * cs) t (unknowns (nth es i) y)
        (unknowns (nth es i) z) (s i) (β i) ∧
      UsesOn κ (nth es'' i).item ∧
      Gap.Spec.Good ⟨(nth es i).vars, (nth es'' i).item⟩ N ∧ SameData (nth es i).item (nth es'' i).item ∧
      0 ≤ separation (nth es i).item (nth es i).vars.length (k * cs) (unknowns (nth es i) z) := by
    intro i hi
    obtain ⟨h1, x', n, b', h2, h3⟩ := hnth i hi
    obtain ⟨x₁, n₁, h4, h5⟩ := hβ i _ (Whole.nth_get hi)
    rw [h2, Outcome.ok.injEq, Prod.mk.injEq, Prod.mk.injEq] at h4
    obtain ⟨rfl, rfl, rfl⟩ := h4
    have hm := Whole.nth_mem hi
    obtain ⟨f1, f2, f3, f4⟩ := item_decrease_on (vars := (nth es i).vars) hv hexp htri hso (hg _ hm) (hcom _ hm) h2 ht ht' htA h5
      (hb _ hm) h3 (hz.inside _ hm) (h0 i _ (Whole.nth_get hi)) (hs i _ (Whole.nth_get hi))
      (multipliers hsep hg hy (Whole.nth_get hi)) (hz.equations _ hm)
    exact ⟨h1, f1, f2, f3, f4, separation_nonneg_on (hg _ hm) (usable_of_prepare (vars := (nth es i).vars) hv htri (hg _ hm) h2)
      (hz.inside _ hm)⟩
  have hmem : ∀ e ∈ es'', ∃ i < es.length, e = nth es'' i := fun e he => by
    obtain ⟨i, hi⟩ := List.getElem?_of_mem he
    exact ⟨i, hlen ▸ (List.getElem?_eq_some_iff.1 hi).1, (Whole.nth_of hi).symm⟩
  have hunk : ∀ i < es.length, ∀ u, unknowns (nth es'' i) u = unknowns (nth es i) u := fun i hi u => by
    unfold unknowns
    rw [(hitem i hi).1]
  refine ⟨fun e he => ?_, ?_, (commonUpdate_iff es'').2 ⟨κ, fun e he => ?_⟩,
    ⟨fun e he => ?_, fun e he o'' ho r hr => ?_, fun u hu => ?_⟩, ?_,
    sum_nonneg fun i hi => (hitem i (mem_range.1 hi)).2.2.2.2.2⟩
  · obtain ⟨i, hi, rfl⟩ := hmem e he
    have := (hitem i hi).2.2.2.1
    rw [← (hitem i hi).1] at this
    exact this
  · refine List.forall₂_iff_get.2 ⟨hlen.symm, fun i hi hi' => ?_⟩
    have e1 : es.get ⟨i, hi⟩ = nth es i := (Whole.nth_of (List.getElem?_eq_getElem hi)).symm
    have e2 : es''.get ⟨i, hi'⟩ = nth es'' i := (Whole.nth_of (List.getElem?_eq_getElem hi')).symm
    rw [e1, e2]
    exact ⟨(hitem i hi).1, (hitem i hi).2.2.2.2.1⟩
  · obtain ⟨i, hi, rfl⟩ := hmem e he
    exact (hitem i hi).2.2.1
  · obtain ⟨i, hi, rfl⟩ := hmem e he
    rw [(hitem i hi).1, hunk i hi, (hitem i hi).2.1.inside]
    exact hz.inside _ (Whole.nth_mem hi)
  · obtain ⟨i, hi, rfl⟩ := hmem e he
    obtain ⟨o, h1, h2, h3, h4, h5⟩ := (hitem i hi).2.1.equation o'' ho
    rw [hunk i hi, h3, h4, h5]
    exact hz.equations _ (Whole.nth_mem hi) o h1 r (h2 ▸ hr)
  · rw [hlen, ← hz.stationary u hu]
    refine sum_congr rfl fun i hi => ?_
    have hi := mem_range.1 hi
    rw [(hitem i hi).1, hunk i hi, (hitem i hi).2.1.force, (hitem i hi).2.1.reaction]
  · -- the cross terms add up to zero
    have e1 : ∑ i ∈ range es.length, ∑ j ∈ range (nth es i).vars.length,
        (unknowns (nth es i) y j - unknowns (nth es i) z j) * res (s i) (nth es i).vars.length (k * cs)
          (unknowns (nth es i) y) j = ∑ u ∈ range N, (y u - z u) * (k * bs * b u) := by
      rw [← hp1]
      refine sum_congr rfl fun i hi => ?_
      rw [hL i (mem_range.1 hi)]
      rfl
    have e2 : ∑ i ∈ range es.length, ∑ j ∈ range (nth es i).vars.length,
        (unknowns (nth es i) y j - unknowns (nth es i) z j) * (force (nth es i).item (nth es i).vars.length (k * cs)
          (unknowns (nth es i) z) j + reaction (nth es i).item (unknowns (nth es i) z) j) =
          ∑ u ∈ range N, (y u - z u) * (k * bs * b u) := by
      symm
      rw [sum_congr rfl fun u hu => by rw [← hz.stationary u (mem_range.1 hu), mul_sum], sum_comm]
      refine sum_congr rfl fun i hi => ?_
      obtain ⟨h1, h2, -⟩ := hg _ (Whole.nth_mem (mem_range.1 hi))
      exact sum_ventry h1 h2 (fun u => y u - z u) _
    have hsum := sum_le_sum fun i hi => (hitem i (mem_range.1 hi)).2.1.closer
    rw [sum_sub_distrib, sum_add_distrib, ← mul_sum, ← mul_sum, ← hB] at hsum
    simp only [mul_sub (unknowns _ y _ - unknowns _ z _), sum_sub_distrib] at hsum
    rw [e1, e2, sub_self, mul_zero, add_zero] at hsum
    refine le_trans (le_of_eq ?_) hsum
    unfold distance
    rw [hlen]
    refine sum_congr rfl fun i hi => ?_
    have hi := mem_range.1 hi
    rw [(hitem i hi).1, hunk i hi]

end Verif.MatrixCentering
