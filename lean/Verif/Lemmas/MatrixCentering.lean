import Verif.Lemmas.MatrixItem
import Verif.Lemmas.WholeSolve
import Verif.Spec.MatrixCentering

/-!
# Lemmas for C95: iterations close to a central point
-/

namespace Verif.MatrixCentering

open Finset Matrix Verif.Dual Gap Gap.Spec

/-! ### Constraints on vectors -/

open ConeCentering ConeCentering.Spec Spin in
theorem vector_quadratic {v : Env ℝ} (hv : ∀ x, 0 ≤ x → SolveLoop.Spec.SqrtAt v.sqrt x) (hexp : v.exp = Real.exp)
    {x x' x'' z z' : Item ℝ} {len : Nat} (hk : ConeCentering.Kind x len)
    (hw : ∀ r < cells x, Spin.Spec.Interior (form x) (point x r)) {c : ℝ} {y y' : Nat → ℝ} {n n' : Option ℝ} {b b' : ℝ}
    (hp : x.prepareStep v c len y = .ok (x', n, b)) (hb : b ≤ 1) (hx : x'.takeStep v 1 = .ok x'')
    (hp' : x''.prepareStep v c len y' = .ok (z, n', b')) (hx' : z.takeStep v 1 = .ok z') {s₀ s₀' s s' : Schur.Sys ℝ}
    (hr : s₀.rows = len) (hs : x.schur v.sqrt s₀ = .ok s) (hr' : s₀'.rows = len) (hs' : x''.schur v.sqrt s₀' = .ok s') :
    Quadratic len c y y' s s' b b' := by
  obtain ⟨hkin, hw', q, a, rfl, h1, h2, h3⟩ := ConeCentering.item_step hv hexp hk hw hp hx
  have hd := hkin.data
  have hk' := hkin.kind hk
  have hw2 : ∀ r < cells x'', Spin.Spec.Interior (form x'') (point x'' r) := fun r hr => by
    rw [hd.form]
    exact hw' r (hd.cells ▸ hr)
  obtain ⟨-, -, q', a', rfl, h1', h2', -⟩ := ConeCentering.item_step hv hexp hk' hw2 hp' hx'
  have hB := hk.form
  have hsl : ∀ r u, slackAt x'' len c u r = slackAt x len c u r := fun r u => by
    unfold slackAt
    rw [hd.column, hd.affine]
  have hr1 := item_res hv hk hw hr hs c y
  have hr2 := item_res hv hk' hw2 hr' hs' c y'
  -- the cells
  have hcell : ∀ r ∈ range (cells x), half x * (1 / 2 * q' r + cross (form x)
      (dualPoint (form x) (point x'' r) (slackAt x len c y' r)) (dualPoint (form x) (point x r) (slackAt x len c y r))
      (slackAt x len c y' r) (slackAt x len c y r)) ≤ half x * (b * q r) := by
    intro r hr
    have hr := mem_range.1 hr
    obtain ⟨z1, d1, a1, g1, g2, g3⟩ := h1 r hr
    obtain ⟨z2, d2, a2, g1', -, -⟩ := h1' r (hd.cells.symm ▸ hr)
    rw [hd.form, hsl] at g1'
    have ha := (prepared_nonneg g1)
    have h0 := ha.1.trans g3
    have ha1 : a ≤ 1 := by nlinarith
    refine mul_le_mul_of_nonneg_left ((cell_quadratic hB g1 g2 g1' (g3.trans ha1) g3).trans ?_) (half_pos _).le
    exact mul_le_mul_of_nonneg_right (by nlinarith) ha.2
  have hsum := sum_le_sum hcell
  have e1 : ∑ r ∈ range (cells x), half x * (b * q r) = b ^ 2 := by
    have : ∑ r ∈ range (cells x), half x * (b * q r) = b * ∑ r ∈ range (cells x), half x * q r := by
      rw [mul_sum]
      exact sum_congr rfl fun r _ => by ring
    rw [this, ← h2, sq]
  have e2 : 1 / 2 * b' = ∑ r ∈ range (cells x), half x * (1 / 2 * q' r) := by
    rw [h2', hd.cells, hd.half, mul_sum]
    exact sum_congr rfl fun r _ => by ring
  simp only [mul_add, sum_add_distrib] at hsum
  rw [← e2, e1] at hsum
  -- the residuals
  have hgm : 0 ≤ ∑ j ∈ range len, (y' j - y j) * (Centering.Spec.gradient y' x j - Centering.Spec.gradient y x j) := by
    rcases hk with ⟨o, w, rfl, -⟩ | ⟨o, w, rfl, -⟩ | ⟨o, w, rfl, -⟩ | ⟨n, Q, rfl, rfl, hQ⟩
    · simp [Centering.Spec.gradient]
    · simp [Centering.Spec.gradient]
    · simp [Centering.Spec.gradient]
    · refine (hQ.2 fun j => y' j - y j).trans (le_of_eq ?_)
      refine sum_congr rfl fun j _ => ?_
      simp only [Centering.Spec.gradient]
      rw [← sum_sub_distrib]
      congr 1
      exact sum_congr rfl fun l _ => by ring
  have hpair : ∀ (X : Soc.El ℝ) (r : Nat), ∑ j ∈ range len, (y' j - y j) * pair x (column x r j) X =
      -(half x * (Spin.Spec.tr (form x) X (slackAt x len c y' r) - Spin.Spec.tr (form x) X (slackAt x len c y r))) := by
    intro X r
    unfold slackAt
    rw [tr_comm hB, tr_slack hB, tr_comm hB X, tr_slack hB]
    simp only [pair_eq]
    have : ∑ j ∈ range len, (y' j - y j) * (half x * Spin.Spec.tr (form x) (column x r j) X) =
        half x * (∑ j ∈ range len, y' j * Spin.Spec.tr (form x) (column x r j) X -
          ∑ j ∈ range len, y j * Spin.Spec.tr (form x) (column x r j) X) := by
      rw [← sum_sub_distrib, mul_sum]
      exact sum_congr rfl fun j _ => by ring
    rw [this]
    ring
  have e3 : ∑ j ∈ range len, (y' j - y j) * (res s' len c y' j - res s len c y j) =
      -(∑ r ∈ range (cells x), half x * cross (form x)
      (dualPoint (form x) (point x'' r) (slackAt x len c y' r)) (dualPoint (form x) (point x r) (slackAt x len c y r))
      (slackAt x len c y' r) (slackAt x len c y r)) +
      ∑ j ∈ range len, (y' j - y j) * (Centering.Spec.gradient y' x j - Centering.Spec.gradient y x j) := by
    have f1 : ∀ j ∈ range len, (y' j - y j) * (res s' len c y' j - res s len c y j) =
        (∑ r ∈ range (cells x), (y' j - y j) * pair x (column x r j)
          (dualPoint (form x) (point x'' r) (slackAt x len c y' r))) -
        (∑ r ∈ range (cells x), (y' j - y j) * pair x (column x r j)
          (dualPoint (form x) (point x r) (slackAt x len c y r))) +
        (y' j - y j) * (Centering.Spec.gradient y' x j - Centering.Spec.gradient y x j) := by
      intro j hj
      rw [hr1 j (mem_range.1 hj), hr2 j (mem_range.1 hj), hd.cells, hd.column, hd.form, hd.gradient, ← mul_sum, ← mul_sum]
      simp only [hd.pair, hsl]
      ring
    rw [sum_congr rfl f1, sum_add_distrib, sum_sub_distrib, sum_comm, sum_comm (s := range len) (t := range (cells x)),
      ← sum_sub_distrib]
    congr 1
    rw [← sum_neg_distrib]
    refine sum_congr rfl fun r _ => ?_
    rw [hpair, hpair]
    unfold cross
    ring
  unfold Quadratic
  rw [e3]
  linarith

/-! ### Any constraint -/

/-- The vector kinds among the constraints. -/
theorem kind_of {vars : List Nat} {N : Nat} {x : Item ℝ} (hg : Gap.Spec.Good ⟨vars, x⟩ N)
    (hu : Iteration.Spec.Usable x) :
    (∃ m o w, x = .lmi m o w) ∨ (∃ d m hd o w, x = .hermitian d m hd o w) ∨
      ConeCentering.Kind x vars.length ∧ ∀ r < ConeCentering.Spec.cells x,
        Spin.Spec.Interior (ConeCentering.Spec.form x) (ConeCentering.Spec.point x r) := by
  obtain ⟨-, -, hg⟩ := hg
  cases x with
  | linear o w =>
    exact Or.inr (Or.inr ⟨Or.inl ⟨o, w, rfl, hu, hg.1⟩, fun r hr => ⟨hg.2 r hr, pow_pos (hg.2 r hr) 2⟩⟩)
  | lmi m o w => exact Or.inl ⟨m, o, w, rfl⟩
  | hermitian d m hd o w => exact Or.inr (Or.inl ⟨d, m, hd, o, w, rfl⟩)
  | octonion m o w => exact absurd hg id
  | soc o w => exact Or.inr (Or.inr ⟨Or.inr (Or.inl ⟨o, w, rfl, hg.2.1, hg.1⟩), fun r _ => hg.2.2⟩)
  | quad o w => exact Or.inr (Or.inr ⟨Or.inr (Or.inr (Or.inl ⟨o, w, rfl, hg.2.1, hg.2.2.1, hg.1⟩)), fun r _ => hg.2.2.2⟩)
  | equality o => exact hu.elim
  | cost n Q =>
    exact Or.inr (Or.inr ⟨Or.inr (Or.inr (Or.inr ⟨n, Q, rfl, hg.1, hg.2⟩)), fun r hr => absurd hr (Nat.not_lt_zero r)⟩)

theorem item_direction {v : Env ℝ} (hv : ∀ x, 0 ≤ x → SolveLoop.Spec.SqrtAt v.sqrt x) (hexp : v.exp = Real.exp)
    (ht : Lmi.Spec.TriEigenvalues v.tri) {vars : List Nat} {N : Nat} {x x' : Item ℝ} (hg : Gap.Spec.Good ⟨vars, x⟩ N)
    {c b : ℝ} {y : Nat → ℝ} {n : Option ℝ}
    (hp : x.prepareStep v c vars.length y = .ok (x', n, b)) : Direction x c y n b := by
  have he : ∀ x, 0 < v.exp x := fun x => hexp ▸ Real.exp_pos x
  by_cases heq : ∃ o, x = .equality o
  · obtain ⟨o, rfl⟩ := heq
    simp only [Item.prepareStep, SolveLoop.bind_eq_ok, Outcome.ok.injEq, Prod.mk.injEq, Equality.prepareStep] at hp
    obtain ⟨q, h1, -, rfl, rfl⟩ := hp
    split_ifs at h1
    rw [Outcome.ok.injEq] at h1
    subst h1
    exact ⟨le_rfl, fun _ => trivial, fun n' hn => by cases hn; norm_num⟩
  have hu : Iteration.Spec.Usable x := by
    have hg' := hg.2.2
    cases x with
    | linear o w =>
      simp only at hg'
      by_contra h0
      have h0 : o.n = 0 := Nat.eq_zero_of_not_pos h0
      simp only [Item.prepareStep, Linear.prepareStep, Linear.negativeSlack, Bool.false_eq_true, if_false,
        hg'.1, lt_irrefl, Outcome.bind_ok, h0, if_true, Outcome.bind_ub, reduceCtorEq] at hp
    | lmi m o w =>
      by_contra h0
      have h0 : m = 0 := Nat.eq_zero_of_not_pos h0
      subst h0
      simp [Item.prepareStep, Lmi.prepareStep, Lmi.negativeSlack_eq o c hg'.1.le y, Lmi.argmaxDiag] at hp
    | hermitian d m hd o w =>
      obtain ⟨-, C, -, h, -⟩ := hermitian_direction hv ht hg'.2.1 hg'.2.2.1 hg'.2.2.2 hp
      exact ⟨C, h⟩
    | octonion m o w => trivial
    | soc o w => trivial
    | quad o w => trivial
    | equality o => exact absurd ⟨o, rfl⟩ heq
    | cost n Q => trivial
  rcases kind_of hg hu with ⟨m, o, w, rfl⟩ | ⟨d, m, hd, o, w, rfl⟩ | ⟨hk, hw⟩
  · obtain ⟨-, -, h1, h2, h3⟩ := hg
    simp only at h1
    rw [← h1] at hp
    exact (lmi_direction hv ht h2 h3 hp).2.1
  · obtain ⟨-, -, h1, h2, h3, h4⟩ := hg
    simp only at h1
    rw [← h1] at hp
    obtain ⟨-, -, -, -, -, -, h, -⟩ := hermitian_direction hv ht h2 h3 h4 hp
    exact h
  · obtain ⟨x₁, n₁, β₁, h1, h2⟩ := Iteration.item_total hv he hg hu c y
    rw [hp, Outcome.ok.injEq, Prod.mk.injEq, Prod.mk.injEq] at h1
    obtain ⟨rfl, rfl, rfl⟩ := h1
    obtain ⟨x'', h2⟩ := h2 1
    obtain ⟨-, -, q, n', rfl, -, -, h3⟩ := ConeCentering.item_step hv hexp hk hw hp h2
    refine ⟨(mul_self_nonneg n').trans h3, fun _ => ?_, fun n₁ hn => ?_⟩
    · rcases hk.vector with ⟨o, w, rfl⟩ | ⟨o, w, rfl⟩ | ⟨o, w, rfl⟩ | ⟨n, Q, rfl⟩ <;> trivial
    · cases hn
      rw [sq]
      exact h3

theorem item_quadratic {v : Env ℝ} (hv : ∀ x, 0 ≤ x → SolveLoop.Spec.SqrtAt v.sqrt x) (hexp : v.exp = Real.exp)
    (ht : Lmi.Spec.TriEigenvalues v.tri) (hso : ∀ n, MatrixExp.Spec.Solves (v.solve n)) {vars : List Nat} {N : Nat}
    {x x' x'' z : Item ℝ} (hg : Gap.Spec.Good ⟨vars, x⟩ N) (hu : Iteration.Spec.Usable x)
    (hg' : Gap.Spec.Good ⟨vars, x''⟩ N) (hu' : Iteration.Spec.Usable x'') {c b b' : ℝ} {y y' : Nat → ℝ}
    {n n' : Option ℝ} (hp : x.prepareStep v c vars.length y = .ok (x', n, b)) (hb : b ≤ 1)
    (hx : x'.takeStep v 1 = .ok x'') (hp' : x''.prepareStep v c vars.length y' = .ok (z, n', b'))
    {s₀ s₀' s s' : Schur.Sys ℝ} (hr : s₀.rows = vars.length) (hs : x.schur v.sqrt s₀ = .ok s)
    (hr' : s₀'.rows = vars.length) (hs' : x''.schur v.sqrt s₀' = .ok s') :
    Quadratic vars.length c y y' s s' b b' := by
  have he : ∀ x, 0 < v.exp x := fun x => hexp ▸ Real.exp_pos x
  rcases kind_of hg hu with ⟨m, o, w, rfl⟩ | ⟨d, m, hd, o, w, rfl⟩ | ⟨hk, hw⟩
  · obtain ⟨-, -, h1, h2, h3⟩ := hg
    exact lmi_quadratic hv ht hso h1 h2 h3 hp hb hx hp' hr hs hr' hs'
  · obtain ⟨-, -, h1, h2, h3, h4⟩ := hg
    exact hermitian_quadratic hv ht h1 h2 h3 h4 hp hb hx hp' hr hs hr' hs'
  · obtain ⟨x₁, n₁, β₁, h1, h2⟩ := Iteration.item_total hv he hg' hu' c y'
    rw [hp', Outcome.ok.injEq, Prod.mk.injEq, Prod.mk.injEq] at h1
    obtain ⟨rfl, rfl, rfl⟩ := h1
    obtain ⟨z', h2⟩ := h2 1
    exact vector_quadratic hv hexp hk hw hp hb hx hp' h2 hr hs hr' hs'

/-! ### All constraints -/

theorem step_one {A : ℝ} (h : A ^ 2 ≤ 1) : SolveLoop.stepSize A = 1 := by
  rcases le_total 0 A with h0 | h0
  · exact ConeCentering.step_size_one h0 (by nlinarith)
  · have e : SolveLoop.stepSize A = SolveLoop.stepSize (-A) := by
      unfold SolveLoop.stepSize
      simp only [neg_eq_zero, neg_mul_neg]
    rw [e]
    exact ConeCentering.step_size_one (by linarith) (by nlinarith)

/-- Directions of all constraints. -/
theorem program_direction {v : Env ℝ} (hv : ∀ x, 0 ≤ x → SolveLoop.Spec.SqrtAt v.sqrt x) (hexp : v.exp = Real.exp)
    (ht : Lmi.Spec.TriEigenvalues v.tri) {N : Nat} {es es' : List (Entry ℝ)} (hg : ∀ e ∈ es, Gap.Spec.Good e N)
    {c A B : ℝ} {y : Nat → ℝ}
    (hp : Dual.prepareStep v c N y es = .ok (es', A, B)) :
    0 ≤ B ∧ (B ≤ 1 → A ^ 2 ≤ 1 ∧ ∀ e ∈ es, Bounded c 1 (fun j => y (e.vars.getD j 0)) e.item) ∧
      ∃ β : Nat → ℝ, (∀ i < es.length, 0 ≤ β i) ∧ B = ∑ i ∈ range es.length, β i ∧
        ∀ (i : Nat) (e : Entry ℝ), es[i]? = some e → ∃ x' n,
          e.item.prepareStep v c e.vars.length (fun j => y (e.vars.getD j 0)) = .ok (x', n, β i) := by
  obtain ⟨-, β, hB, hβ⟩ := prepareLoop_inv es hp
  rw [zero_add] at hB
  have hdir : ∀ (i : Nat) (e : Entry ℝ), es[i]? = some e → ∃ x' n,
      e.item.prepareStep v c e.vars.length (fun j => y (e.vars.getD j 0)) = .ok (x', n, β i) ∧
        Direction e.item c (fun j => y (e.vars.getD j 0)) n (β i) := by
    intro i e he
    obtain ⟨x', n, h1, -⟩ := hβ i e he
    have hmem : e ∈ es := List.mem_of_getElem? he
    exact ⟨x', n, h1, item_direction (vars := e.vars) hv hexp ht (hg e hmem) h1⟩
  have h0 : ∀ i < es.length, 0 ≤ β i := fun i hi => by
    obtain ⟨-, -, -, h, -⟩ := hdir i _ (List.getElem?_eq_getElem hi)
    exact h
  have hle : ∀ i < es.length, β i ≤ B := fun i hi => by
    rw [hB]
    exact single_le_sum (f := β) (fun j hj => h0 j (mem_range.1 hj)) (mem_range.2 hi)
  refine ⟨?_, fun h1 => ⟨?_, fun e he => ?_⟩, β, h0, hB, fun i e he => ?_⟩
  · rw [hB]
    exact sum_nonneg fun i hi => h0 i (mem_range.1 hi)
  · rcases Centering.attained es hp with h | ⟨i, e, x', b, h2, h3⟩
    · rw [h]
      norm_num
    · obtain ⟨x₁, n, h4, h5⟩ := hdir i e h2
      rw [h3, Outcome.ok.injEq, Prod.mk.injEq, Prod.mk.injEq] at h4
      obtain ⟨rfl, rfl, rfl⟩ := h4
      have hi : i < es.length := (List.getElem?_eq_some_iff.1 h2).1
      exact (h5.2.2 A rfl).trans ((hle i hi).trans h1)
  · obtain ⟨i, hi, rfl⟩ := List.getElem_of_mem he
    obtain ⟨x', n, h2, h⟩ := hdir i _ (List.getElem?_eq_getElem hi)
    exact h.2.1 ((hle i hi).trans h1)
  · obtain ⟨x', n, h1, -⟩ := hdir i e he
    exact ⟨x', n, h1⟩

/-- A full step of all constraints. -/
theorem program_next {v : Env ℝ} (hv : ∀ x, 0 ≤ x → SolveLoop.Spec.SqrtAt v.sqrt x) (he : ∀ x, 0 < v.exp x)
    (hs : ∀ n, MatrixExp.Spec.Solves (v.solve n)) {N : Nat} {es es'' : List (Entry ℝ)}
    (hg : ∀ e ∈ es, Gap.Spec.Good e N) {c : ℝ} {y : Nat → ℝ}
    (hb : ∀ e ∈ es, Bounded c 1 (fun j => y (e.vars.getD j 0)) e.item)
    (h : List.Forall₂ (fun e e'' => e''.vars = e.vars ∧ ∃ x' n β,
      e.item.prepareStep v c e.vars.length (fun j => y (e.vars.getD j 0)) = .ok (x', n, β) ∧
      x'.takeStep v 1 = .ok e''.item) es es'') :
    (∀ e ∈ es'', Gap.Spec.Good e N) ∧ SameProg es es'' := by
  induction h with
  | nil => exact ⟨by simp, List.Forall₂.nil⟩
  | @cons e e'' l l'' h1 _ ih =>
    obtain ⟨h2, x', n, β, h3, h4⟩ := h1
    rw [← ConeCentering.step_size_one zero_le_one le_rfl] at h4
    obtain ⟨h5, h6⟩ := Gap.item_step (vars := e.vars) hv he hs (hg e List.mem_cons_self) h3
      (fun _ _ _ _ => hb e List.mem_cons_self) h4
    obtain ⟨h7, h8⟩ := ih (fun e he => hg e (List.mem_cons_of_mem _ he))
      (fun e he => hb e (List.mem_cons_of_mem _ he))
    refine ⟨?_, List.Forall₂.cons ⟨h2, h6⟩ h8⟩
    intro e₁ he₁
    rcases List.mem_cons.1 he₁ with rfl | h
    · obtain ⟨v1, x1⟩ := e₁
      simp only at h2
      subst h2
      exact h5
    · exact h7 _ h

/-- Pairing the linear system of all constraints with a vector. -/
theorem paired {N : Nat} {y b z : Nat → ℝ} {k bs cs : ℝ} {es : List (Entry ℝ)}
    (hg : ∀ e ∈ es, e.vars.Nodup ∧ ∀ v ∈ e.vars, v < N) {s : Nat → Schur.Sys ℝ}
    (hy : ∀ u < N, ∑ v ∈ range N, Sup.Spec.total (es.map Entry.vars) (fun i => (s i).G) u v * y v =
      k * (bs * b u + cs * ((List.range es.length).map fun i =>
        Sup.Spec.ventry ((es.map Entry.vars).getD i []) (s i).AQc u).sum) -
      2 * ((List.range es.length).map fun i =>
        Sup.Spec.ventry ((es.map Entry.vars).getD i []) (s i).AW u).sum) :
    ∑ i ∈ range es.length, ∑ j ∈ range ((es.map Entry.vars).getD i []).length,
      z (((es.map Entry.vars).getD i []).getD j 0) * res (s i) ((es.map Entry.vars).getD i []).length (k * cs)
        (fun j => y (((es.map Entry.vars).getD i []).getD j 0)) j = ∑ u ∈ range N, z u * (k * bs * b u) := by
  symm
  rw [sum_congr rfl fun u hu => by rw [← system_res hg (hy u (mem_range.1 hu)), mul_sum], sum_comm]
  refine sum_congr rfl fun i hi => ?_
  have hi := mem_range.1 hi
  have hL : (es.map Entry.vars).getD i [] = es[i].vars := by
    rw [List.getD_eq_getElem?_getD, List.getElem?_map, List.getElem?_eq_getElem hi]
    rfl
  obtain ⟨h1, h2⟩ := hg _ (List.getElem_mem hi)
  rw [hL]
  exact sum_ventry h1 h2 z _

/-- Two iterations. -/
theorem program_quadratic {v : Env ℝ} (hv : ∀ x, 0 ≤ x → SolveLoop.Spec.SqrtAt v.sqrt x) (hexp : v.exp = Real.exp)
    (ht : Lmi.Spec.TriEigenvalues v.tri) (hso : ∀ n, MatrixExp.Spec.Solves (v.solve n)) {N : Nat}
    {es es' es'' l : List (Entry ℝ)} (hg : ∀ e ∈ es, Gap.Spec.Good e N) (hu : ∀ e ∈ es, Iteration.Spec.Usable e.item)
    (hg' : ∀ e ∈ es'', Gap.Spec.Good e N) (hu' : ∀ e ∈ es'', Iteration.Spec.Usable e.item) {k bs cs A B A' B' : ℝ}
    {b y y' : Nat → ℝ} (hp : Dual.prepareStep v (k * cs) N y es = .ok (es', A, B)) (hB : B ≤ 1)
    (hx : Dual.takeStep v (SolveLoop.stepSize A) es' = .ok es'')
    (hp' : Dual.prepareStep v (k * cs) N y' es'' = .ok (l, A', B'))
    (hy : Gap.Spec.System v.sqrt N b k bs cs es y) (hy' : Gap.Spec.System v.sqrt N b k bs cs es'' y') :
    B' ≤ 2 * B ^ 2 := by
  obtain ⟨-, hone, β, hβ0, hBβ, hβ⟩ := program_direction hv hexp ht hg hp
  obtain ⟨-, -, β', -, hBβ', hβ'⟩ := program_direction hv hexp ht hg' hp'
  rw [step_one (hone hB).1] at hx
  have hall := prepare_take es hp hx
  have hvars : es''.map Entry.vars = es.map Entry.vars := by
    clear hp hx hp' hg hg' hu hu' hy hy' hone hβ0 hBβ hβ hBβ' hβ'
    induction hall with
    | nil => rfl
    | cons h1 _ ih => simp only [List.map_cons, ih, h1.1]
  have hlen : es''.length = es.length := hall.length_eq.symm
  have hle : ∀ i < es.length, β i ≤ B := fun i hi => by
    rw [hBβ]
    exact single_le_sum (f := β) (fun j hj => hβ0 j (mem_range.1 hj)) (mem_range.2 hi)
  obtain ⟨s₀, s, h0, hs, hy⟩ := hy
  obtain ⟨s₀', s', h0', hs', hy'⟩ := hy'
  have hp1 := paired (z := fun u => y' u - y u) (fun e he => ⟨(hg e he).1, (hg e he).2.1⟩) hy
  have hp2 := paired (z := fun u => y' u - y u) (fun e he => ⟨(hg' e he).1, (hg' e he).2.1⟩) hy'
  rw [hlen, hvars] at hp2
  have hitem : ∀ i ∈ range es.length, 1 / 2 * β' i -
      (∑ j ∈ range ((es.map Entry.vars).getD i []).length,
        (y' (((es.map Entry.vars).getD i []).getD j 0) - y (((es.map Entry.vars).getD i []).getD j 0)) *
          res (s' i) ((es.map Entry.vars).getD i []).length (k * cs)
            (fun j => y' (((es.map Entry.vars).getD i []).getD j 0)) j -
      ∑ j ∈ range ((es.map Entry.vars).getD i []).length,
        (y' (((es.map Entry.vars).getD i []).getD j 0) - y (((es.map Entry.vars).getD i []).getD j 0)) *
          res (s i) ((es.map Entry.vars).getD i []).length (k * cs)
            (fun j => y (((es.map Entry.vars).getD i []).getD j 0)) j) ≤ β i ^ 2 := by
    intro i hi
    have hi := mem_range.1 hi
    have hi'' : i < es''.length := hlen.symm ▸ hi
    have hL : (es.map Entry.vars).getD i [] = es[i].vars := by
      rw [List.getD_eq_getElem?_getD, List.getElem?_map, List.getElem?_eq_getElem hi]
      rfl
    rw [hL]
    obtain ⟨hv1, x', n, b₁, hq1, hq2⟩ := (List.forall₂_iff_get.1 hall).2 i hi hi''
    simp only [List.get_eq_getElem] at hv1 hq1 hq2
    obtain ⟨x₁, n₁, hq3⟩ := hβ i _ (List.getElem?_eq_getElem hi)
    rw [hq1, Outcome.ok.injEq, Prod.mk.injEq, Prod.mk.injEq] at hq3
    obtain ⟨rfl, rfl, rfl⟩ := hq3
    obtain ⟨x₂, n₂, hq4⟩ := hβ' i _ (List.getElem?_eq_getElem hi'')
    rw [hv1] at hq4
    have g1 := hg _ (List.getElem_mem hi)
    have g2 : Gap.Spec.Good ⟨es[i].vars, es''[i].item⟩ N := by
      have := hg' _ (List.getElem_mem hi'')
      rw [← hv1]
      exact this
    have r2 := h0' i _ (List.getElem?_eq_getElem hi'')
    rw [hv1] at r2
    have := item_quadratic (vars := es[i].vars) hv hexp ht hso g1 (hu _ (List.getElem_mem hi)) g2
      (hu' _ (List.getElem_mem hi'')) hq1 ((hle i hi).trans hB) hq2 hq4 (h0 i _ (List.getElem?_eq_getElem hi))
      (hs i _ (List.getElem?_eq_getElem hi)) r2 (hs' i _ (List.getElem?_eq_getElem hi''))
    unfold Quadratic at this
    simp only [mul_sub, sum_sub_distrib] at this ⊢
    exact this
  have hsum := sum_le_sum hitem
  rw [sum_sub_distrib, sum_sub_distrib, hp1, hp2, sub_self, sub_zero, ← mul_sum, ← hlen, ← hBβ', hlen] at hsum
  have hsq : ∑ i ∈ range es.length, β i ^ 2 ≤ B ^ 2 := by
    have : ∑ i ∈ range es.length, β i ^ 2 ≤ ∑ i ∈ range es.length, B * β i :=
      sum_le_sum fun i hi => by
        rw [sq]
        exact mul_le_mul_of_nonneg_right (hle i (mem_range.1 hi)) (hβ0 i (mem_range.1 hi))
    rw [← mul_sum, ← hBβ, ← sq] at this
    exact this
  linarith

/-! ### Iterations -/

/-- The next iteration. -/
theorem ready_next {v : Env ℝ} (hv : ∀ x, 0 ≤ x → SolveLoop.Spec.SqrtAt v.sqrt x) (hexp : v.exp = Real.exp)
    (ht : Lmi.Spec.TriEigenvalues v.tri) (hs : ∀ n, MatrixExp.Spec.Solves (v.solve n)) {p : Iteration.Setup ℝ}
    {duals : List (List Nat)} {x x' : Iteration.State ℝ} (hr : Iteration.Spec.Ready p duals x) {k : ℝ}
    {st : Iteration.Step ℝ} (h : Iteration.iterate v p k x = .ok (some (st, x'))) (hn : st.normsqrd ≤ 1) :
    Iteration.Spec.Ready p duals x' ∧ SameProg x.es x'.es ∧ st.norm ≤ 1 := by
  have he : ∀ x, 0 < v.exp x := fun x => hexp ▸ Real.exp_pos x
  have hu := Centering.unregularized hv he hr h
  obtain ⟨-, h1, h2⟩ := Iteration.iterate_values hr.built (fun e he => (hr.good e he).1) hr.sized h hu
  obtain ⟨-, -, -, -, es', -, -, -, -, -, -, -, h3, h4, -⟩ := Iteration.iterate_ok h
  obtain ⟨h5, h6, -⟩ := Iteration.same_step h3 h4
  obtain ⟨-, hone, -⟩ := program_direction hv hexp ht hr.good h3
  obtain ⟨ha, hb⟩ := hone hn
  rw [step_one ha] at h4
  obtain ⟨h9, h10⟩ := program_next hv he hs hr.good hb (prepare_take _ h3 h4)
  exact ⟨⟨Iteration.built_congr hr.built h2, hr.complete, hr.noDuals, h9, h6 hr.usable, h1, h5 hr.determined⟩, h10,
    by nlinarith⟩

theorem system {v : Env ℝ} {p : Iteration.Setup ℝ} {duals : List (List Nat)} {x x' : Iteration.State ℝ}
    (hr : Iteration.Spec.Ready p duals x) {k : ℝ} {st : Iteration.Step ℝ}
    (h : Iteration.iterate v p k x = .ok (some (st, x'))) (hu : Iteration.Spec.Unregularized st) :
    Gap.Spec.System v.sqrt p.N p.b k p.bs p.cs x.es st.y := by
  obtain ⟨⟨s, r, h3, h4, -⟩, -⟩ :=
    Iteration.iterate_values hr.built (fun e he => (hr.good e he).1) hr.sized h hu
  exact Infeasible.system_of h3 h4

/-! ### The start -/

theorem data_start {e : Entry ℝ} {N : Nat} (h : MatrixCentering.Spec.Data e N) :
    Gap.Spec.Good ⟨e.vars, Whole.setIdentity e.item⟩ N ∧ Iteration.Spec.Usable (Whole.setIdentity e.item) ∧
      ∀ z, Iteration.Spec.Insensitive z (Whole.setIdentity e.item) ↔ Iteration.Spec.Insensitive z e.item := by
  obtain ⟨h1, h2, h3⟩ := h
  obtain ⟨vars, x⟩ := e
  have vector : Whole.Spec.Data ⟨vars, x⟩ N → Gap.Spec.Good ⟨vars, Whole.setIdentity x⟩ N ∧
      Iteration.Spec.Usable (Whole.setIdentity x) ∧
      ∀ z, Iteration.Spec.Insensitive z (Whole.setIdentity x) ↔ Iteration.Spec.Insensitive z x := fun h =>
    ⟨Whole.data_good h, (Whole.data_usable h).1, (Whole.data_usable h).2.2⟩
  cases x with
  | linear o w => exact vector h3
  | soc o w => exact vector h3
  | quad o w => exact vector h3
  | cost n Q => exact vector h3
  | lmi n o w => exact ⟨⟨h1, h2, h3.1, h3.2.2, PosDef.one⟩, h3.2.1, fun _ => Iff.rfl⟩
  | hermitian d n hd o w =>
    exact ⟨⟨h1, h2, h3.1, h3.2.1, h3.2.2.1, HermLmi.C60_identity (Hyper.dim_of_assoc h3.2.1) w⟩, h3.2.2.2,
      fun _ => Iff.rfl⟩
  | octonion => exact h3.elim
  | equality => exact h3.elim

theorem start_ready {P : Whole.Program ℝ} (hP : MatrixCentering.Spec.ConeProgram P) {l : Whole.Linear ℝ}
    (hl : Dense.Spec.LltContract l.llt) (hc : Dense.Spec.LltComplete l.llt) (hq : l.useQr = false) :
    P.N = P.m ∧ ∃ kkt, Sup.kktInit (P.es.map Entry.vars) P.duals = .ok kkt ∧
      Iteration.Spec.Ready ⟨P.N, P.b, 1, 1, kkt, l.useQr, l.refine, l.llt, l.qr⟩ P.duals
        ⟨Whole.startEs P, P.sys, l.mat⟩ :=
  Whole.start_ready_of (fun e he => data_start (hP.data e he)) hP.first hP.length hP.noDuals hP.sized hP.occurs hP.noShift
    hP.determined hl hc hq

/-- An exact eigenvalue routine exists. -/
theorem exists_tri : ∃ tri : List ℝ → List ℝ → List ℝ, Lmi.Spec.TriEigenvalues tri := by
  have h : ∀ a b : List ℝ, ∃ l : List ℝ, a ≠ [] → a.length = b.length + 1 →
      l ≠ [] ∧ ∀ t ∈ l, MatrixExp.Spec.Eigenvalue (Lmi.Spec.jacobi a b) t := by
    intro a b
    have hsym : (Lmi.Spec.jacobi a b)ᵀ = Lmi.Spec.jacobi a b := by
      ext i j
      unfold Lmi.Spec.jacobi transpose
      simp only [of_apply]
      by_cases hij : i = j
      · subst hij
        rfl
      · rw [if_neg hij, if_neg (Ne.symm hij)]
        split_ifs <;> first | rfl | omega
    obtain ⟨U, d, h1, h2, h3⟩ := Lmi.exists_spectral hsym
    by_cases ha : a = []
    · exact ⟨[], fun h => absurd ha h⟩
    · refine ⟨[d ⟨0, List.length_pos_iff.2 ha⟩], fun _ _ => ⟨by simp, fun t ht => ?_⟩⟩
      rw [List.mem_singleton] at ht
      have hc : Lmi.Spec.jacobi a b * U = U * diagonal d := by
        rw [h3, Matrix.mul_assoc, h2, Matrix.mul_one]
      exact (Lmi.eigenvalue_iff (isUnit_iff_exists.2 ⟨Uᵀ, h1, h2⟩) hc t).2 ⟨_, ht.symm⟩
  choose tri h using h
  exact ⟨tri, h⟩

end Verif.MatrixCentering
