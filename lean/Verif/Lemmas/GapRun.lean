import Verif.Lemmas.Gap
import Verif.Props.LinearConstraint
import Verif.Props.Lmi
import Verif.Props.QuadCone

/-!
# Iterations keep the scaling points inside the cones (C71)
-/

namespace Verif.Gap

open Finset Dual Spec

/-- The two constraints have the same data. -/
def SameData (x x' : Item ℝ) : Prop :=
  (∀ z, Sat z x' ↔ Sat z x) ∧ (∀ z, quadCost z x' = quadCost z x) ∧ x'.rank = x.rank ∧
  ∀ o', x' = .equality o' → ∃ o, x = .equality o ∧ o.p = o'.p ∧ o.q = o'.q

theorem stepSize_sq (b : ℝ) : (SolveLoop.stepSize b) ^ 2 * b ^ 2 ≤ 2 := by
  rcases le_total 0 b with h | h
  · have := (Lmi.stepSize_norm h).2
    rwa [mul_pow] at this
  · have := (Lmi.stepSize_norm (neg_nonneg.2 h)).2
    have e : SolveLoop.stepSize (-b) = SolveLoop.stepSize b := by
      unfold SolveLoop.stepSize
      simp only [neg_eq_zero, neg_mul_neg]
    rwa [e, mul_pow, neg_sq] at this

/-- One step of one constraint. -/
theorem item_step {v : Env ℝ} (hv : ∀ x, 0 ≤ x → SolveLoop.Spec.SqrtAt v.sqrt x) (he : ∀ x, 0 < v.exp x)
    (hs : ∀ n, MatrixExp.Spec.Solves (v.solve n)) {vars : List Nat} {N : Nat} {x x' x'' : Item ℝ}
    (hg : Gap.Spec.Good ⟨vars, x⟩ N) {c A β : ℝ} {y : Nat → ℝ} {n : Option ℝ}
    (hp : x.prepareStep v c vars.length y = .ok (x', n, β))
    (hb : ∀ m o w, x = .lmi m o w → Bounded c A y x)
    (ht : x'.takeStep v (SolveLoop.stepSize A) = .ok x'') :
    Gap.Spec.Good ⟨vars, x''⟩ N ∧ SameData x x'' := by
  obtain ⟨h1, h2, h3⟩ := hg
  cases x with
  | linear o w =>
    simp only at h3
    have hn : 0 < o.n := by
      by_contra h0
      have h0 : o.n = 0 := by omega
      simp only [Item.prepareStep, Linear.prepareStep, Linear.negativeSlack, Bool.false_eq_true, if_false,
        h3.1, lt_irrefl, Outcome.bind_ok, h0, if_true, Outcome.bind_ub, reduceCtorEq] at hp
    obtain ⟨w', a, b, e1, -, -, -, e2⟩ := Linear.C35_step v.exp o hn (opt := ⟨false, c, 1, 1⟩) rfl h3.1.le y w
    have hW : w'.W = w.W := by
      obtain ⟨w'', a', b', e1', -, -, e3, -⟩ :=
        Linear.C35_step v.exp o hn (opt := ⟨false, c, 1, 1⟩) rfl h3.1.le y w
      rw [e1] at e1'
      simp only [Outcome.ok.injEq, Prod.mk.injEq] at e1'
      rw [e1'.1, e3]
    simp only [Item.prepareStep, e1, Outcome.bind_ok, Outcome.ok.injEq, Prod.mk.injEq] at hp
    obtain ⟨rfl, -, -⟩ := hp
    simp only [Item.takeStep, Outcome.ok.injEq] at ht
    subst ht
    refine ⟨⟨h1, h2, h3.1, fun r hr => ?_⟩, fun z => Iff.rfl, fun z => rfl, rfl, fun o' h => by cases h⟩
    simp only [Linear.takeStep, Bool.false_eq_true, if_false, hW]
    exact mul_pos (h3.2 r hr) (he _)
  | lmi m o w =>
    simp only at h3
    cases hq : Lmi.prepareStep v.sqrt v.tri o c 1 vars.length y w with
    | throws => simp [Item.prepareStep, hq] at hp
    | ub => simp [Item.prepareStep, hq] at hp
    | diverges => simp [Item.prepareStep, hq] at hp
    | ok q =>
      obtain ⟨w', n', β'⟩ := q
      simp only [Item.prepareStep, hq, Outcome.bind_ok, Outcome.ok.injEq, Prod.mk.injEq] at hp
      obtain ⟨rfl, -, -⟩ := hp
      obtain ⟨-, rfl, -, -⟩ := Lmi.prepareStep_inv hq
      simp only [Item.takeStep, Outcome.ok.injEq] at ht
      subst ht
      refine ⟨⟨h1, h2, h3.1, h3.2.1, ?_⟩, fun z => Iff.rfl, fun z => rfl, rfl, fun o' h => by cases h⟩
      have hx : ∀ μ, MatrixExp.Spec.Eigenvalue (w.W * -Lmi.Spec.slack o c y) μ →
          (SolveLoop.stepSize A * (μ + 1)) ^ 2 ≤ 2 := by
        intro μ hμ
        have hμ' : MatrixExp.Spec.Eigenvalue (w.W * Lmi.Spec.slack o c y) (-μ) := by
          obtain ⟨u, hu, he⟩ := hμ
          refine ⟨u, hu, ?_⟩
          rw [Matrix.mul_neg, Matrix.neg_mulVec] at he
          rw [neg_smul, ← he, neg_neg]
        have h5 := hb _ _ _ rfl _ hμ'
        refine le_trans ?_ (stepSize_sq A)
        rw [mul_pow]
        refine mul_le_mul_of_nonneg_left ?_ (sq_nonneg _)
        rw [sub_neg_eq_add, add_comm] at h5
        exact sq_le_sq' (abs_le.1 h5).1 (abs_le.1 h5).2
      have hneg : ∀ μ, MatrixExp.Spec.Eigenvalue (w.W * -Lmi.Spec.slack o c y) μ →
          0 < MatrixExp.Spec.p (-(SolveLoop.stepSize A * (μ + 1))) :=
        fun μ hμ => Lmi.p_pos (by rw [neg_sq]; exact hx μ hμ)
      refine (Lmi.C57_iff (hs m) h3.2.2 (Lmi.slack_transpose h3.2.1 c y) _ 1
        fun μ hμ => (hneg μ hμ).ne').2 fun μ hμ => ?_
      exact div_pos (Lmi.p_pos (hx μ hμ)) (hneg μ hμ)
  | hermitian d m hd o w =>
    simp only at h3
    cases hq : HermLmi.prepareStep v.sqrt v.tri (v.start d m) o c 1 vars.length y w with
    | throws => simp [Item.prepareStep, hq] at hp
    | ub => simp [Item.prepareStep, hq] at hp
    | diverges => simp [Item.prepareStep, hq] at hp
    | ok q =>
      obtain ⟨w', n', β'⟩ := q
      simp only [Item.prepareStep, hq, Outcome.bind_ok, Outcome.ok.injEq, Prod.mk.injEq] at hp
      obtain ⟨rfl, -, -⟩ := hp
      obtain ⟨C, hC, -, g1, g2, -, -⟩ := HermLmi.prepareStep_inv hq
      simp only [Item.takeStep, Outcome.ok.injEq] at ht
      subst ht
      refine ⟨⟨h1, h2, h3.1, h3.2.1, h3.2.2.1, ?_⟩, fun z => Iff.rfl, fun z => rfl, rfl,
        fun o' h => by cases h⟩
      rw [← g1] at g2
      exact HermLmi.C60_step h3.2.1 w' (g1 ▸ h3.2.2.2) _
        (HermLmi.hermitian_scalar (HermLmi.hermitian_slack hC h3.2.2.1 c y) (-1)) g2 _ 1
  | octonion m o w => exact h3.elim
  | soc o w =>
    simp only at h3
    obtain ⟨w', a, b, e1, -, w'', e2, e3, -⟩ :=
      Soc.C36_step hv he o h3.2.1 c y (SolveLoop.stepSize A) w h3.2.2
    simp only [Item.prepareStep, ← h3.1, e1, Outcome.bind_ok, Outcome.ok.injEq, Prod.mk.injEq] at hp
    obtain ⟨rfl, -, -⟩ := hp
    simp only [Item.takeStep, e2, Outcome.bind_ok, Outcome.ok.injEq] at ht
    subst ht
    exact ⟨⟨h1, h2, h3.1, h3.2.1, e3⟩, fun z => Iff.rfl, fun z => rfl, rfl, fun o' h => by cases h⟩
  | quad o w =>
    simp only at h3
    obtain ⟨w', a, b, e1, -, e3, -⟩ :=
      QuadCone.C36_step hv he o h3.2.2.1 c y (SolveLoop.stepSize A) w h3.2.2.2
    simp only [Item.prepareStep, ← h3.1, e1, Outcome.bind_ok, Outcome.ok.injEq, Prod.mk.injEq] at hp
    obtain ⟨rfl, -, -⟩ := hp
    simp only [Item.takeStep, Outcome.ok.injEq] at ht
    subst ht
    exact ⟨⟨h1, h2, h3.1, h3.2.1, h3.2.2.1, e3⟩, fun z => Iff.rfl, fun z => rfl, rfl,
      fun o' h => by cases h⟩
  | equality o =>
    simp only at h3
    have hlt : ¬ vars.length < o.nb := by omega
    simp only [Item.prepareStep, Equality.prepareStep, if_neg hlt, Outcome.bind_ok, Outcome.ok.injEq,
      Prod.mk.injEq] at hp
    obtain ⟨rfl, -, -⟩ := hp
    simp only [Item.takeStep, Outcome.ok.injEq] at ht
    subst ht
    exact ⟨⟨h1, h2, h3⟩, fun z => Iff.rfl, fun z => rfl, rfl, fun o' h => by cases h; exact ⟨o, rfl, rfl, rfl⟩⟩
  | cost m Q =>
    simp only [Item.prepareStep, Outcome.ok.injEq, Prod.mk.injEq] at hp
    obtain ⟨rfl, -, -⟩ := hp
    simp only [Item.takeStep, Outcome.ok.injEq] at ht
    subst ht
    exact ⟨⟨h1, h2, h3⟩, fun z => Iff.rfl, fun z => rfl, rfl, fun o' h => by cases h⟩

/-- One step of all constraints, one by one. -/
theorem prepare_take {v : Env ℝ} {c size : ℝ} {N : Nat} {y : Nat → ℝ} (es : List (Entry ℝ)) :
    ∀ {a b : ℝ} {es' es'' : List (Entry ℝ)} {A B : ℝ}, prepareLoop v c N y a b es = .ok (es', A, B) →
    Dual.takeStep v size es' = .ok es'' →
    List.Forall₂ (fun e e'' => e''.vars = e.vars ∧ ∃ x' n β,
      e.item.prepareStep v c e.vars.length (fun j => y (e.vars.getD j 0)) = .ok (x', n, β) ∧
      x'.takeStep v size = .ok e''.item) es es'' := by
  induction es with
  | nil =>
    intro a b es' es'' A B h ht
    simp only [prepareLoop, Outcome.ok.injEq, Prod.mk.injEq] at h
    obtain ⟨rfl, -, -⟩ := h
    simp only [Dual.takeStep, Outcome.ok.injEq] at ht
    subst ht
    exact List.Forall₂.nil
  | cons e l ih =>
    intro a b es' es'' A B h ht
    unfold prepareLoop at h
    cases hg : gather N y e.vars with
    | throws => simp [hg] at h
    | ub => simp [hg] at h
    | diverges => simp [hg] at h
    | ok z =>
      have hz : z = fun j => y (e.vars.getD j 0) := by
        unfold gather at hg
        split_ifs at hg
        exact (Outcome.ok.inj hg).symm
      simp only [hg, Outcome.bind_ok] at h
      cases hq : e.item.prepareStep v c e.vars.length z with
      | throws => simp [hq] at h
      | ub => simp [hq] at h
      | diverges => simp [hq] at h
      | ok q =>
        simp only [hq, Outcome.bind_ok] at h
        cases hl : prepareLoop v c N y (updateNorm a q.2.1) (b + q.2.2) l with
        | throws => simp [hl] at h
        | ub => simp [hl] at h
        | diverges => simp [hl] at h
        | ok r =>
          obtain ⟨es₁, A', B'⟩ := r
          simp only [hl, Outcome.bind_ok, Outcome.ok.injEq, Prod.mk.injEq] at h
          obtain ⟨rfl, -, -⟩ := h
          unfold Dual.takeStep at ht
          simp only at ht
          cases hx : q.1.takeStep v size with
          | throws => simp [hx] at ht
          | ub => simp [hx] at ht
          | diverges => simp [hx] at ht
          | ok x =>
            simp only [hx, Outcome.bind_ok] at ht
            cases hy : Dual.takeStep v size es₁ with
            | throws => simp [hy] at ht
            | ub => simp [hy] at ht
            | diverges => simp [hy] at ht
            | ok l' =>
              simp only [hy, Outcome.bind_ok, Outcome.ok.injEq] at ht
              subst ht
              refine List.Forall₂.cons ⟨rfl, q.1, q.2.1, q.2.2, ?_, hx⟩ (ih hl hy)
              rw [← hz, hq]

/-- The program of the constraints is the same. -/
def SameProg (es es' : List (Entry ℝ)) : Prop :=
  List.Forall₂ (fun e e' => e'.vars = e.vars ∧ SameData e.item e'.item) es es'

theorem SameData.refl (x : Item ℝ) : SameData x x :=
  ⟨fun _ => Iff.rfl, fun _ => rfl, rfl, fun o h => ⟨o, h, rfl, rfl⟩⟩

theorem SameData.trans {x x' x'' : Item ℝ} (h : SameData x x') (h' : SameData x' x'') : SameData x x'' := by
  refine ⟨fun z => (h'.1 z).trans (h.1 z), fun z => (h'.2.1 z).trans (h.2.1 z), h'.2.2.1.trans h.2.2.1, ?_⟩
  intro o'' e
  obtain ⟨o', e', h1, h2⟩ := h'.2.2.2 o'' e
  obtain ⟨o, e, h3, h4⟩ := h.2.2.2 o' e'
  exact ⟨o, e, h3.trans h1, h4.trans h2⟩

theorem SameProg.refl (es : List (Entry ℝ)) : SameProg es es := by
  induction es with
  | nil => exact List.Forall₂.nil
  | cons e l ih => exact List.Forall₂.cons ⟨rfl, SameData.refl _⟩ ih

theorem SameProg.trans {l₁ l₂ l₃ : List (Entry ℝ)} (h : SameProg l₁ l₂) : SameProg l₂ l₃ → SameProg l₁ l₃ := by
  intro h'
  induction h generalizing l₃ with
  | nil => exact h'
  | cons h1 _ ih =>
    cases h' with
    | cons h2 h3 => exact List.Forall₂.cons ⟨h2.1.trans h1.1, h1.2.trans h2.2⟩ (ih h3)

theorem SameProg.get {es es' : List (Entry ℝ)} (h : SameProg es es') :
    ∀ {i : Nat} {e' : Entry ℝ}, es'[i]? = some e' →
      ∃ e, es[i]? = some e ∧ e'.vars = e.vars ∧ SameData e.item e'.item := by
  induction h with
  | nil => intro i e' h; simp at h
  | cons h1 _ ih =>
    intro i e' h
    cases i with
    | zero =>
      simp only [List.getElem?_cons_zero, Option.some.injEq] at h
      subst h
      exact ⟨_, rfl, h1⟩
    | succ i =>
      simp only [List.getElem?_cons_succ] at h
      simpa using ih h

theorem SameProg.feasible {es es' : List (Entry ℝ)} (h : SameProg es es') (z : Nat → ℝ) :
    Feasible es' z ↔ Feasible es z := by
  unfold Feasible
  induction h with
  | nil => simp
  | cons h1 _ ih =>
    simp only [List.forall_mem_cons, ih, h1.1, h1.2.1]

theorem SameProg.objective {es es' : List (Entry ℝ)} (h : SameProg es es') (N : Nat) (b : Nat → ℝ) (r : ℝ)
    (z : Nat → ℝ) : objective N b r es' z = objective N b r es z := by
  unfold Spec.objective
  congr 2
  induction h with
  | nil => rfl
  | cons h1 _ ih => simp only [List.map_cons, List.sum_cons, ih, h1.1, h1.2.2.1]

theorem SameProg.rank {es es' : List (Entry ℝ)} (h : SameProg es es') : rank es' = rank es := by
  have key : ∀ n, es'.foldl (fun r e => r + e.item.rank) n = es.foldl (fun r e => r + e.item.rank) n := by
    induction h with
    | nil => intro n; rfl
    | cons h1 _ ih => intro n; simp only [List.foldl_cons, ih, h1.2.2.2.1]
  exact key 0

theorem SameProg.separate {es es' : List (Entry ℝ)} (h : SameProg es es') {b : Nat → ℝ}
    (hs : Separate es b) : Separate es' b := by
  intro i e o he ho r hr
  obtain ⟨e₀, h1, h2, h3⟩ := h.get he
  obtain ⟨o₀, h4, h5, h6⟩ := h3.2.2.2 o ho
  obtain ⟨h7, h8⟩ := hs i e₀ o₀ h1 h4 r (h5 ▸ hr)
  rw [h2, ← h6]
  refine ⟨h7, fun j e' hj hne => ?_⟩
  obtain ⟨e₁, h9, h10, -⟩ := h.get hj
  rw [h10]
  exact h8 j e₁ h9 hne

/-- A step of the whole program. -/
theorem program_step {v : Env ℝ} (hv : ∀ x, 0 ≤ x → SolveLoop.Spec.SqrtAt v.sqrt x)
    (he : ∀ x, 0 < v.exp x) (hs : ∀ n, MatrixExp.Spec.Solves (v.solve n)) {N : Nat}
    {es es' es'' : List (Entry ℝ)} (hg : ∀ e ∈ es, Gap.Spec.Good e N) {c A B : ℝ} {y : Nat → ℝ}
    (hp : Dual.prepareStep v c N y es = .ok (es', A, B))
    (hb : ∀ e ∈ es, ∀ m o w, e.item = .lmi m o w → Bounded c A (fun j => y (e.vars.getD j 0)) e.item)
    (ht : Dual.takeStep v (SolveLoop.stepSize A) es' = .ok es'') :
    (∀ e ∈ es'', Gap.Spec.Good e N) ∧ SameProg es es'' := by
  have h := prepare_take es hp ht
  clear hp ht
  induction h with
  | nil => exact ⟨by simp, List.Forall₂.nil⟩
  | @cons e e'' l l'' h1 _ ih =>
    obtain ⟨h2, x', n, β, h3, h4⟩ := h1
    obtain ⟨h5, h6⟩ := item_step (vars := e.vars) hv he hs (hg e List.mem_cons_self) h3
      (hb e List.mem_cons_self) h4
    obtain ⟨h7, h8⟩ := ih (fun e he => hg e (List.mem_cons_of_mem _ he))
      (fun e he => hb e (List.mem_cons_of_mem _ he))
    refine ⟨?_, List.Forall₂.cons ⟨h2, h6⟩ h8⟩
    intro e₁ he₁
    rcases List.mem_cons.1 he₁ with rfl | h
    · obtain ⟨v1, x1⟩ := e₁
      simp only at h2
      subst h2
      exact h5
    · exact h7 _ h

/-- All iterations keep the data and the scaling points inside the cones. -/
theorem run_good {v : Env ℝ} (hv : ∀ x, 0 ≤ x → SolveLoop.Spec.SqrtAt v.sqrt x)
    (he : ∀ x, 0 < v.exp x) (hs : ∀ n, MatrixExp.Spec.Solves (v.solve n)) {N : Nat} {b : Nat → ℝ}
    {bs cs : ℝ} {k norm : Nat → ℝ} {j : Nat} {es : Nat → List (Entry ℝ)} {y : Nat → Nat → ℝ}
    (hr : Run v N b bs cs k norm j es y) (hg : ∀ e ∈ es 0, Gap.Spec.Good e N)
    (hb : ∀ i < j, ∀ e ∈ es i, Bounded (k i * cs) (norm i) (fun l => y i (e.vars.getD l 0)) e.item) :
    ∀ i ≤ j, (∀ e ∈ es i, Gap.Spec.Good e N) ∧ SameProg (es 0) (es i) := by
  intro i
  induction i with
  | zero => exact fun _ => ⟨hg, SameProg.refl _⟩
  | succ i ih =>
    intro hi
    obtain ⟨h1, h2⟩ := ih (by omega)
    obtain ⟨-, es', B, h3, h4⟩ := hr i (by omega)
    obtain ⟨h5, h6⟩ := program_step hv he hs h1 h3 (fun e h _ _ _ _ => hb i (by omega) e h)
      (h4 (by omega))
    exact ⟨h5, h2.trans h6⟩

end Verif.Gap
