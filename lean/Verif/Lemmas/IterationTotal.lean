import Verif.Lemmas.IterationForm

/-!
# Lemmas for C74: iterations are defined
-/

namespace Verif.Iteration

open Finset Dual Gap.Spec Spec

/-- The systems of all constraints. -/
theorem schurAll_total {sqrt : ℝ → ℝ} (hv : ∀ x, 0 ≤ x → SolveLoop.Spec.SqrtAt sqrt x) {N : Nat}
    (es : List (Entry ℝ)) : ∀ {sys : List (Schur.Sys ℝ)}, (∀ e ∈ es, Gap.Spec.Good e N) →
    (∀ e ∈ es, Usable e.item) → Sized es sys →
    ∃ sys', schurAll sqrt es sys = .ok sys' ∧ ∀ (i : Nat) (e : Entry ℝ), es[i]? = some e → ∀ z,
      0 ≤ form e.vars.length (sysAt sys' i).G z ∧
      (form e.vars.length (sysAt sys' i).G z = 0 → Insensitive z e.item) := by
  induction es with
  | nil => exact fun _ _ _ => ⟨[], rfl, fun i e h => by simp at h⟩
  | cons e es ih =>
    intro sys hg hu hs
    cases sys with
    | nil => simp [Sized] at hs
    | cons s sys =>
      simp only [Sized, List.map_cons, List.cons.injEq] at hs
      obtain ⟨t, h1, h2⟩ := item_form hv (hg e List.mem_cons_self) (hu e List.mem_cons_self) s hs.1
      obtain ⟨sys', h3, h4⟩ := ih (fun e he => hg e (List.mem_cons_of_mem _ he))
        (fun e he => hu e (List.mem_cons_of_mem _ he)) hs.2
      refine ⟨t :: sys', by simp only [schurAll, h1, h3, Outcome.bind_ok], fun i e' he => ?_⟩
      cases i with
      | zero =>
        simp only [List.getElem?_cons_zero, Option.some.injEq] at he
        subst he
        exact h2
      | succ i => exact h4 i e' he

/-- The quadratic form of the whole system. -/
theorem total_form {N : Nat} {es : List (Entry ℝ)} (hg : ∀ e ∈ es, e.vars.Nodup ∧ ∀ v ∈ e.vars, v < N)
    (G : Nat → Nat → Nat → ℝ) (x : Nat → ℝ) :
    ∑ i ∈ range N, ∑ j ∈ range N, x i * Sup.Spec.total (es.map Entry.vars) G i j * x j =
      ∑ i ∈ range es.length, form ((es.map Entry.vars).getD i []).length (G i)
        (fun j => x (((es.map Entry.vars).getD i []).getD j 0)) := by
  have h1 : ∀ u v, x u * Sup.Spec.total (es.map Entry.vars) G u v * x v =
      ∑ i ∈ range es.length, x u * (Sup.Spec.entry ((es.map Entry.vars).getD i []) (G i) u v * x v) := by
    intro u v
    unfold Sup.Spec.total
    rw [Gap.list_range_sum, List.length_map, mul_sum, sum_mul]
    exact sum_congr rfl fun i _ => by ring
  simp only [h1]
  rw [sum_congr rfl fun u _ => sum_comm, sum_comm]
  refine sum_congr rfl fun i hi => ?_
  have hi := mem_range.1 hi
  have hL : (es.map Entry.vars).getD i [] = es[i].vars := by
    rw [List.getD_eq_getElem?_getD, List.getElem?_map, List.getElem?_eq_getElem hi]
    rfl
  obtain ⟨g1, g2⟩ := hg _ (List.getElem_mem hi)
  rw [hL]
  simp only [← mul_sum, entry_row g1 g2]
  rw [Gap.sum_ventry g1 g2]
  rfl

/-- The matrix of the linear system is positive definite. -/
theorem posDef {N : Nat} {es : List (Entry ℝ)} (hg : ∀ e ∈ es, Gap.Spec.Good e N) (hd : Determined N es)
    {G : Nat → Nat → Nat → ℝ} (hG : ∀ (i : Nat) (e : Entry ℝ), es[i]? = some e → ∀ z,
      0 ≤ form e.vars.length (G i) z ∧ (form e.vars.length (G i) z = 0 → Insensitive z e.item)) :
    Sup.Spec.PosDef N (Sup.Spec.total (es.map Entry.vars) G) := by
  intro x hx
  rw [total_form (fun e he => ⟨(hg e he).1, (hg e he).2.1⟩)]
  have hL : ∀ i (hi : i < es.length), (es.map Entry.vars).getD i [] = es[i].vars := by
    intro i hi
    rw [List.getD_eq_getElem?_getD, List.getElem?_map, List.getElem?_eq_getElem hi]
    rfl
  obtain ⟨e, he, hne⟩ := hd x hx
  obtain ⟨i, hi, rfl⟩ := List.mem_iff_getElem.1 he
  refine sum_pos' (fun i hi => ?_) ⟨i, mem_range.2 hi, ?_⟩
  · have hi := mem_range.1 hi
    rw [hL i hi]
    exact (hG i _ (List.getElem?_eq_getElem hi) _).1
  · rw [hL i hi]
    obtain ⟨h1, h2⟩ := hG i _ (List.getElem?_eq_getElem hi) fun j => x (es[i].vars.getD j 0)
    exact lt_of_le_of_ne h1 fun h0 => hne (h2 h0.symm)

/-- A step of a constraint is defined. -/
theorem item_total {v : Env ℝ} (hv : ∀ x, 0 ≤ x → SolveLoop.Spec.SqrtAt v.sqrt x) (he : ∀ x, 0 < v.exp x)
    {vars : List Nat} {N : Nat} {x : Item ℝ} (hg : Gap.Spec.Good ⟨vars, x⟩ N) (hu : Usable x) (c : ℝ)
    (y : Nat → ℝ) : ∃ x' n β, x.prepareStep v c vars.length y = .ok (x', n, β) ∧
      ∀ size, ∃ x'', x'.takeStep v size = .ok x'' := by
  obtain ⟨-, -, h⟩ := hg
  cases x with
  | linear o w =>
    obtain ⟨w', a, b, e1, -⟩ := Linear.C35_step v.exp o hu (opt := ⟨false, c, 1, 1⟩) rfl h.1.le y w
    exact ⟨.linear o w', some a, b, by simp only [Item.prepareStep, e1, Outcome.bind_ok], fun size => ⟨_, rfl⟩⟩
  | lmi m o w =>
    obtain ⟨i, hi, -⟩ := Lmi.argmaxDiag_some (w.W * -Lmi.Spec.slack o c y) hu
    have key : ∃ q, Lmi.prepareStep v.sqrt v.tri o c 1 vars.length y w = .ok q := by
      simp only [Lmi.prepareStep, Lmi.negativeSlack_eq o c h.1.le y, Outcome.bind_ok, hi]
      exact ⟨_, rfl⟩
    obtain ⟨q, hq⟩ := key
    exact ⟨.lmi m o q.1, q.2.1, q.2.2, by simp only [Item.prepareStep, hq, Outcome.bind_ok], fun size => ⟨_, rfl⟩⟩
  | hermitian d m hd o w =>
    obtain ⟨C, hC⟩ := hu
    have key : ∃ q, HermLmi.prepareStep v.sqrt v.tri (v.start d m) o c 1 vars.length y w = .ok q := by
      simp only [HermLmi.prepareStep, HermLmi.negativeSlack_eq hC c h.1.le y, Outcome.bind_ok]
      exact ⟨_, rfl⟩
    obtain ⟨q, hq⟩ := key
    exact ⟨.hermitian d m hd o q.1, q.2.1, q.2.2, by simp only [Item.prepareStep, hq, Outcome.bind_ok],
      fun size => ⟨_, rfl⟩⟩
  | octonion m o w => exact absurd h id
  | soc o w =>
    obtain ⟨hm, ho, hw⟩ := h
    simp only at hm
    obtain ⟨w', a, b, e1, -, -⟩ := Soc.C36_step hv he o ho c y 1 w hw
    refine ⟨.soc o w', some a, b, by simp only [Item.prepareStep, ← hm, e1, Outcome.bind_ok], fun size => ?_⟩
    obtain ⟨w₁, a₁, b₁, e2, -, w'', e3, -⟩ := Soc.C36_step hv he o ho c y size w hw
    rw [e1] at e2
    simp only [Outcome.ok.injEq, Prod.mk.injEq] at e2
    rw [← e2.1] at e3
    exact ⟨.soc o w'', by simp only [Item.takeStep, e3, Outcome.bind_ok]⟩
  | quad o w =>
    obtain ⟨hm, ho, hB, hw⟩ := h
    simp only at hm
    obtain ⟨w', a, b, e1, -⟩ := QuadCone.C36_step hv he o hB c y 1 w hw
    exact ⟨.quad o w', some a, b, by simp only [Item.prepareStep, ← hm, e1, Outcome.bind_ok], fun size => ⟨_, rfl⟩⟩
  | equality o => exact hu.elim
  | cost m Q => exact ⟨_, _, _, rfl, fun size => ⟨_, rfl⟩⟩

/-- Steps of all constraints are defined. -/
theorem prepare_total {v : Env ℝ} (hv : ∀ x, 0 ≤ x → SolveLoop.Spec.SqrtAt v.sqrt x) (he : ∀ x, 0 < v.exp x)
    {N : Nat} (c : ℝ) (y : Nat → ℝ) (es : List (Entry ℝ)) : ∀ a b : ℝ, (∀ e ∈ es, Gap.Spec.Good e N) →
    (∀ e ∈ es, Usable e.item) → ∃ es' A B, prepareLoop v c N y a b es = .ok (es', A, B) ∧
      ∀ size, ∃ es'', Dual.takeStep v size es' = .ok es'' := by
  induction es with
  | nil => exact fun a b _ _ => ⟨[], a, b, rfl, fun size => ⟨[], rfl⟩⟩
  | cons e es ih =>
    intro a b hg hu
    obtain ⟨vars, x⟩ := e
    have hge := hg _ List.mem_cons_self
    obtain ⟨x', n, β, h1, h2⟩ := item_total hv he hge (hu _ List.mem_cons_self) c
      (fun j => y (vars.getD j 0))
    obtain ⟨es', A, B, h3, h4⟩ := ih (updateNorm a n) (b + β) (fun e he => hg e (List.mem_cons_of_mem _ he))
      (fun e he => hu e (List.mem_cons_of_mem _ he))
    refine ⟨⟨vars, x'⟩ :: es', A, B, ?_, fun size => ?_⟩
    · simp only [prepareLoop, gather_ok hge.2.1, Outcome.bind_ok, h1, h3]
    · obtain ⟨x'', h5⟩ := h2 size
      obtain ⟨es'', h6⟩ := h4 size
      exact ⟨⟨vars, x''⟩ :: es'', by simp only [Dual.takeStep, h5, h6, Outcome.bind_ok]⟩

/-- Steps keep what the constraints are insensitive to. -/
theorem item_same {v : Env ℝ} {c size β : ℝ} {len : Nat} {y : Nat → ℝ} {x x' x'' : Item ℝ} {n : Option ℝ}
    (hp : x.prepareStep v c len y = .ok (x', n, β)) (ht : x'.takeStep v size = .ok x'') :
    (∀ z, Insensitive z x'' ↔ Insensitive z x) ∧ (Usable x'' ↔ Usable x) ∧
      (DenseMatrix x'' ↔ DenseMatrix x) ∧ (MatrixCone x'' ↔ MatrixCone x) := by
  cases x with
  | linear o w =>
    simp only [Item.prepareStep, SolveLoop.bind_eq_ok] at hp
    obtain ⟨⟨w', q⟩, -, h⟩ := hp
    cases q with
    | none => cases h
    | some q =>
      cases h
      cases ht
      exact ⟨fun z => Iff.rfl, Iff.rfl, Iff.rfl, Iff.rfl⟩
  | cost m Q =>
    cases hp
    cases ht
    exact ⟨fun z => Iff.rfl, Iff.rfl, Iff.rfl, Iff.rfl⟩
  | soc o w =>
    simp only [Item.prepareStep, SolveLoop.bind_eq_ok, Outcome.ok.injEq, Prod.mk.injEq] at hp
    obtain ⟨q, -, rfl, -⟩ := hp
    simp only [Item.takeStep, SolveLoop.bind_eq_ok, Outcome.ok.injEq] at ht
    obtain ⟨w', -, rfl⟩ := ht
    exact ⟨fun z => Iff.rfl, Iff.rfl, Iff.rfl, Iff.rfl⟩
  | _ =>
    simp only [Item.prepareStep, SolveLoop.bind_eq_ok, Outcome.ok.injEq, Prod.mk.injEq] at hp
    obtain ⟨q, -, rfl, -⟩ := hp
    cases ht
    exact ⟨fun z => Iff.rfl, Iff.rfl, Iff.rfl, Iff.rfl⟩

theorem same_step {v : Env ℝ} {c size : ℝ} {N : Nat} {y : Nat → ℝ} {es es' es'' : List (Entry ℝ)} {A B : ℝ}
    (hp : Dual.prepareStep v c N y es = .ok (es', A, B)) (ht : Dual.takeStep v size es' = .ok es'') :
    (Determined N es → Determined N es'') ∧ ((∀ e ∈ es, Usable e.item) → ∀ e ∈ es'', Usable e.item) ∧
      ((∀ e ∈ es, ¬ DenseMatrix e.item) → ∀ e ∈ es'', ¬ DenseMatrix e.item) ∧
      ((∀ e ∈ es, ¬ MatrixCone e.item) → ∀ e ∈ es'', ¬ MatrixCone e.item) := by
  have h := Gap.prepare_take es hp ht
  have key : List.Forall₂ (fun e e'' : Entry ℝ => e''.vars = e.vars ∧
      (∀ z, Insensitive z e''.item ↔ Insensitive z e.item) ∧ (Usable e''.item ↔ Usable e.item) ∧
      (DenseMatrix e''.item ↔ DenseMatrix e.item) ∧ (MatrixCone e''.item ↔ MatrixCone e.item)) es es'' :=
    h.imp fun e e'' ⟨h1, x', n, β, h2, h3⟩ => ⟨h1, item_same h2 h3⟩
  clear h hp ht
  have all : ∀ P : Item ℝ → Prop, List.Forall₂ (fun e e'' : Entry ℝ => P e''.item ↔ P e.item) es es'' →
      (∀ e ∈ es, P e.item) → ∀ e ∈ es'', P e.item := by
    intro P hP
    clear key
    induction hP with
    | nil => simp
    | @cons e₁ e₂ l₁ l₂ h1 _ ih =>
      intro hu e he
      rcases List.mem_cons.1 he with rfl | he
      · exact h1.2 (hu _ List.mem_cons_self)
      · exact ih (fun e he => hu e (List.mem_cons_of_mem _ he)) e he
  refine ⟨fun hd z hz => ?_, all _ (key.imp fun _ _ h => h.2.2.1),
    all (fun x => ¬ DenseMatrix x) (key.imp fun _ _ h => not_congr h.2.2.2.1),
    all (fun x => ¬ MatrixCone x) (key.imp fun _ _ h => not_congr h.2.2.2.2)⟩
  obtain ⟨e, he, hne⟩ := hd z hz
  clear hd hz all
  induction key with
  | nil => simp at he
  | @cons e₁ e₂ l₁ l₂ h1 _ ih =>
    rcases List.mem_cons.1 he with rfl | he
    · refine ⟨e₂, List.mem_cons_self, fun h => hne ?_⟩
      rw [h1.1] at h
      exact (h1.2.1 _).1 h
    · obtain ⟨e', h2, h3⟩ := ih he
      exact ⟨e', List.mem_cons_of_mem _ h2, h3⟩

/-- Without equations the factorization is Cholesky's. -/
theorem fact_chol {p : Setup ℝ} {duals : List (List Nat)} {es : List (Entry ℝ)} (hb : Built p duals es)
    (hnd : ∀ c ∈ es.map Entry.vars, c.Nodup) (hno : ∀ d ∈ duals, d = []) {w : Sup.Workspace} {m : Sup.Store ℝ}
    {s : Sup.Solver ℝ} (h : (Sup.Solver.mk p.kkt w m false p.refine none none).factor p.llt = .ok (some s))
    (F : Sup.LdltStore ℝ) : s.fact ≠ some (.ldlt F) := by
  obtain ⟨-, -, -, -, -, -, -, -, hdu, -⟩ := Sup.kkt_pattern hnd (by simp [hb.length]) hb.kkt
  have hnd' : (p.kkt.duals.all fun d => d.length = 0) = true := by
    rw [List.all_eq_true]
    intro d hd
    rw [hdu] at hd
    rw [hno d hd]
    rfl
  have hsave : ∃ sv, (Sup.Solver.mk p.kkt w m false p.refine none none).save =
      ⟨p.kkt, w, m, false, p.refine, sv, none⟩ := by
    unfold Sup.Solver.save
    by_cases h : 0 < p.refine ∨ false = true
    · rw [if_pos h]; exact ⟨_, rfl⟩
    · rw [if_neg h]; exact ⟨_, rfl⟩
  obtain ⟨sv, hsv⟩ := hsave
  unfold Sup.Solver.factor Sup.Solver.factorCore at h
  rw [hsv] at h
  simp only [hnd', Bool.false_eq_true, if_false, if_true] at h
  cases hc : Sup.blockCholesky p.llt w m with
  | ok o =>
    rw [hc] at h
    cases o with
    | none => simp [Outcome.bind] at h
    | some S =>
      simp only [Outcome.bind, Outcome.ok.injEq, Option.some.injEq] at h
      subst h
      simp
  | throws => rw [hc] at h; simp [Outcome.bind] at h
  | ub => rw [hc] at h; simp [Outcome.bind] at h
  | diverges => rw [hc] at h; simp [Outcome.bind] at h

/-- An iteration is defined. -/
theorem iterate_total {v : Env ℝ} (hv : ∀ x, 0 ≤ x → SolveLoop.Spec.SqrtAt v.sqrt x) (he : ∀ x, 0 < v.exp x)
    {p : Setup ℝ} {duals : List (List Nat)} {x : State ℝ} (hr : Ready p duals x) (k : ℝ) :
    ∃ st x', iterate v p k x = .ok (some (st, x')) ∧ Unregularized st := by
  obtain ⟨hb, hcomp, hno, hg, hu, hz, hd⟩ := hr
  obtain ⟨sys, h1, h2⟩ := schurAll_total hv x.es hg hu hz
  have hnd : ∀ c ∈ x.es.map Entry.vars, c.Nodup := by
    intro c hc
    obtain ⟨e, he, rfl⟩ := List.mem_map.1 hc
    exact (hg e he).1
  obtain ⟨w, m, h3, h4, -⟩ := Sup.C69_assembled_system _ duals hnd (by simp [hb.length]) hno p.kkt hb.kkt hb.noShift
    p.N hb.occurs p.llt hb.llt hcomp p.qr (fun i => (sysAt sys i).G) x.mat p.refine
  obtain ⟨solver, h5, h6⟩ := h4 (posDef hg hd h2)
  obtain ⟨r, h7, -⟩ := Sup.C19_residuals p.N (x.es.map Entry.vars)
    (fun i => KktError.resid (sysAt sys i)) hnd fun c hc u hu => (hb.occurs u).2 ⟨c, hc, hu⟩
  obtain ⟨y, h8, -⟩ := h6 (rhs p k r)
  obtain ⟨es', A, B, h9, h10⟩ := prepare_total hv he (k * p.cs) y x.es (-1) 0 hg hu
  obtain ⟨es'', h11⟩ := h10 (SolveLoop.stepSize A)
  refine ⟨⟨y, A, B, KktError.byValue p.N p.b y k p.cs, KktError.cxValue p.N r y k p.bs p.cs, solver.fact⟩,
    ⟨es'', sys, solver.mat⟩, ?_, fun F hF => ?_⟩
  · have h9' : Dual.prepareStep v (k * p.cs) p.N y x.es = .ok (es', A, B) := h9
    unfold iterate factorize advance
    simp only [h1, h3, h7, hb.mode, h5, h8, h9', h11, Outcome.bind_ok]
  · exact absurd hF (fact_chol hb hnd hno h5 F)

/-- The next iteration has the same properties. -/
theorem ready_next {v : Env ℝ} (hv : ∀ x, 0 ≤ x → SolveLoop.Spec.SqrtAt v.sqrt x) (he : ∀ x, 0 < v.exp x)
    (hs : ∀ n, MatrixExp.Spec.Solves (v.solve n)) {p : Setup ℝ} {duals : List (List Nat)} {x x' : State ℝ}
    (hr : Ready p duals x) {k : ℝ} {st : Step ℝ} (h : iterate v p k x = .ok (some (st, x')))
    (hu : Unregularized st) (hb : ∀ e ∈ x.es, DenseMatrix e.item →
      Bounded (k * p.cs) st.norm (fun j => st.y (e.vars.getD j 0)) e.item) :
    Ready p duals x' ∧ ((∀ e ∈ x.es, ¬ DenseMatrix e.item) → ∀ e ∈ x'.es, ¬ DenseMatrix e.item) ∧
      ((∀ e ∈ x.es, ¬ MatrixCone e.item) → ∀ e ∈ x'.es, ¬ MatrixCone e.item) := by
  obtain ⟨-, h1, h2⟩ := iterate_values hr.built (fun e he => (hr.good e he).1) hr.sized h hu
  obtain ⟨-, -, -, -, es', -, -, -, -, -, -, -, h3, h4, -⟩ := iterate_ok h
  obtain ⟨h5, h6, h7, h8⟩ := same_step h3 h4
  obtain ⟨h9, -⟩ := Gap.program_step hv he hs hr.good h3
    (fun e he m o w hx => hb e he (by rw [hx]; trivial)) h4
  exact ⟨⟨built_congr hr.built h2, hr.complete, hr.noDuals, h9, h6 hr.usable, h1, h5 hr.determined⟩, h7, h8⟩

/-- A run that does not end. -/
theorem run_exists {v : Env ℝ} (hv : ∀ x, 0 ≤ x → SolveLoop.Spec.SqrtAt v.sqrt x) (he : ∀ x, 0 < v.exp x)
    (hs : ∀ n, MatrixExp.Spec.Solves (v.solve n)) {p : Setup ℝ} {duals : List (List Nat)} {x₀ : State ℝ}
    (hr : Ready p duals x₀) (hd : ∀ e ∈ x₀.es, ¬ DenseMatrix e.item) (k : Nat → ℝ) :
    ∃ (x : Nat → State ℝ) (st : Nat → Step ℝ), x 0 = x₀ ∧
      ∀ i, iterate v p (k i) (x i) = .ok (some (st i, x (i + 1))) ∧ Unregularized (st i) := by
  have next : ∀ (i : Nat) (x : {x : State ℝ // Ready p duals x ∧ ∀ e ∈ x.es, ¬ DenseMatrix e.item}),
      ∃ q : Step ℝ × {x : State ℝ // Ready p duals x ∧ ∀ e ∈ x.es, ¬ DenseMatrix e.item},
        iterate v p (k i) x.1 = .ok (some (q.1, q.2.1)) ∧ Unregularized q.1 := by
    intro i ⟨x, h1, h2⟩
    obtain ⟨st, x', h3, h4⟩ := iterate_total hv he h1 (k i)
    obtain ⟨h5, h6, -⟩ := ready_next hv he hs h1 h3 h4 fun e he hd => absurd hd (h2 e he)
    exact ⟨(st, ⟨x', h5, h6 h2⟩), h3, h4⟩
  choose f hf using next
  let X : Nat → {x : State ℝ // Ready p duals x ∧ ∀ e ∈ x.es, ¬ DenseMatrix e.item} :=
    fun i => Nat.rec ⟨x₀, hr, hd⟩ (fun i x => (f i x).2) i
  exact ⟨fun i => (X i).1, fun i => (f i (X i)).1, rfl, fun i => hf i (X i)⟩

end Verif.Iteration
