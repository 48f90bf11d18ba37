import Verif.Lemmas.FeasibleObjective
import Verif.Props.Gap

/-!
# C78: `GetFeasibleObjective` bounds the program

The vector that `GetFeasibleObjective` returns is an objective for which `Solve(b, …)` has a dual point in the
interior of the cone: its value is a constant minus half of the trace of the slacks.
-/

namespace Verif.Feasible

open Dual Finset Spec Whole

/-- The objective is defined, for all kinds of constraints. -/
theorem C78_defined (v : Env ℝ) (hv : ∀ x, 0 ≤ x → SolveLoop.Spec.SqrtAt v.sqrt x) (P : Program ℝ)
    (hu : Usable P) (hg : ∀ e ∈ P.es, Data e P.N) (hs : Iteration.Spec.Sized P.es P.sys) (mat : Sup.Store ℝ) :
    ∃ b, objective v P mat = .ok b := by
  obtain ⟨hlen, ⟨k, hk, hn⟩, hlast, hocc⟩ := hu
  have hnd : ∀ c ∈ P.es.map Entry.vars, c.Nodup := by
    intro c hc
    obtain ⟨e, he, rfl⟩ := List.mem_map.1 hc
    exact (hg e he).1
  obtain ⟨sys, h1, -⟩ := schurAll_data hv P.es hg hs
  obtain ⟨w, st, h2, -⟩ := Sup.C18_assembly_partial _ P.duals hnd (by simp [hlen]) hlast k hk hn
    (fun i => (Iteration.sysAt sys i).G) mat
  obtain ⟨sp, -, -, -, -, h3, h4, h5, -⟩ := Sup.kkt_pattern hnd (by simp [hlen]) hk
  have hN : P.N = k.data.N := by
    have : (List.range P.N).Perm k.pt := by
      rw [List.perm_ext_iff_of_nodup List.nodup_range h3]
      intro u
      rw [List.mem_range, hocc, h5]
    rw [← h4, ← this.length_eq, List.length_range]
  obtain ⟨r, h6, -⟩ := Sup.C19_residuals_in_elimination_order _ P.duals
    (fun i => KktError.resid (Iteration.sysAt sys i)) hnd k hk
    fun c hc u hu => hN ▸ (hocc u).2 ⟨c, hc, hu⟩
  rw [← hN] at h6
  exact ⟨_, by simp only [objective, hk, h1, h2, h6, Outcome.bind_ok]; rfl⟩

/-- The value of the objective at every point. -/
theorem C78_value (v : Env ℝ) (hv : ∀ x, 0 ≤ x → SolveLoop.Spec.SqrtAt v.sqrt x) (P : Program ℝ)
    (hg : ∀ e ∈ P.es, Data e P.N) (hs : Iteration.Spec.Sized P.es P.sys) (mat : Sup.Store ℝ) (b : Column ℝ)
    (h : objective v P mat = .ok b) :
    b.1 = P.N ∧ ∃ β : ℝ, ∀ z, value b z = β - 1 / 2 * traces P.es z := by
  have hnd : ∀ c ∈ P.es.map Entry.vars, c.Nodup := by
    intro c hc
    obtain ⟨e, he, rfl⟩ := List.mem_map.1 hc
    exact (hg e he).1
  obtain ⟨sys, h1, h2⟩ := schurAll_data hv P.es hg hs
  simp only [objective, SolveLoop.bind_eq_ok, h1, Outcome.ok.injEq] at h
  obtain ⟨k, hk, sys', rfl, w, -, r, h3, rfl⟩ := h
  have hN : P.N = k.data.N := by
    by_contra hne
    simp [Sup.kktResiduals, Sup.Kkt.checkRows, hne, Outcome.bind] at h3
  obtain ⟨r', h4, -, h5, -⟩ := Sup.C19_residuals_in_elimination_order _ P.duals
    (fun i => KktError.resid (Iteration.sysAt sys i)) hnd k hk (by
      intro c hc u hu
      obtain ⟨e, he, rfl⟩ := List.mem_map.1 hc
      exact hN ▸ (hg e he).2.1 u hu)
  rw [← hN, h3, Outcome.ok.injEq] at h4
  subst h4
  refine ⟨rfl, 1 / 2 * ∑ i ∈ range P.es.length, (Iteration.sysAt sys i).wc, fun z => ?_⟩
  have := value_eq hg h5 h2 z
  simp only [value, mul_assoc, ← mul_sum, this]
  ring

/-- The objective is bounded on the feasible set, and feasible points of high value have bounded slacks. -/
theorem C78_bounded (v : Env ℝ) (hv : ∀ x, 0 ≤ x → SolveLoop.Spec.SqrtAt v.sqrt x) (P : Program ℝ)
    (hg : ∀ e ∈ P.es, Data e P.N) (hs : Iteration.Spec.Sized P.es P.sys) (mat : Sup.Store ℝ) (b : Column ℝ)
    (h : objective v P mat = .ok b) :
    (∃ β : ℝ, ∀ z, Gap.Spec.Feasible P.es z → value b z ≤ β) ∧
    ∀ α : ℝ, ∃ t : ℝ, ∀ z, Gap.Spec.Feasible P.es z → α ≤ value b z →
      ∀ e ∈ P.es, Within t (fun j => z (e.vars.getD j 0)) e.item := by
  obtain ⟨-, β, hβ⟩ := C78_value v hv P hg hs mat b h
  have h0 : ∀ z, Gap.Spec.Feasible P.es z → ∀ x ∈ P.es.map fun e => trace (fun j => z (e.vars.getD j 0)) e.item,
      0 ≤ x := by
    intro z hz x hx
    obtain ⟨e, he, rfl⟩ := List.mem_map.1 hx
    exact (item_bound (hg e he) (hz e he)).1
  refine ⟨⟨β, fun z hz => ?_⟩, fun α => ⟨4 * (2 * (β - α)), fun z hz hα e he => ?_⟩⟩
  · have : 0 ≤ traces P.es z := List.sum_nonneg (h0 z hz)
    rw [hβ]
    linarith
  · refine (item_bound (hg e he) (hz e he)).2 _ ?_
    have := List.single_le_sum (h0 z hz) _ (List.mem_map_of_mem he)
    refine this.trans ?_
    have := hβ z
    unfold traces at this
    linarith

/-- Without equations, `Solve(b, …)` maximises the objective.  Partial: with equations it does not, see
`C78_equations_violated`. -/
theorem C78_solve_partial {R : Type} [Field R] [LinearOrder R] (v : Env R) (P : Program R)
    (hd : ∀ d ∈ P.duals, d = []) (mat : Sup.Store R) (b : Column R) (h : objective v P mat = .ok b) :
    ∀ u < P.m, (withObjective P b).b u = b.2 u := by
  simp only [objective, SolveLoop.bind_eq_ok, Outcome.ok.injEq] at h
  obtain ⟨-, -, -, -, -, -, r, -, rfl⟩ := h
  have hN : P.m = P.N := by
    have : ∀ L : List (List Nat), (∀ d ∈ L, d = []) → (L.map List.length).sum = 0 := by
      intro L hL
      induction L with
      | nil => rfl
      | cons a L ih =>
        simp [ih fun d hd => hL d (List.mem_cons_of_mem _ hd), hL a List.mem_cons_self]
    unfold Program.N
    rw [this _ hd, Nat.add_zero]
  intro u hu
  simp [withObjective, addLinearCost, clearLinearCosts, ← hN, Program.b, hu]

/-! ### Examples -/

/-- `2 y₀ ≤ 1`, `y₁ ≤ 1` and the equation `y₀ + y₁ = 0` with multiplier `y₂`, with arbitrary workspace. -/
noncomputable def exProgram (w : Linear.Ws ℝ) : Program ℝ :=
  ⟨2, fun _ => 7,
   [⟨[0, 1], .linear ⟨2, 2, fun i j => if i = j then (if i = 0 then 2 else 1) else 0, fun _ => 1⟩ w⟩,
    ⟨[0, 1, 2], .equality ⟨1, 2, 1, fun _ _ => 1, fun _ => 0, fun _ => 0⟩⟩],
   [[], [2]], [2, 3].map fun n => ⟨n, fun _ _ => 0, fun _ => 0, fun _ => 0, 0, 0⟩, false⟩

theorem ex_kkt : ∃ k, Sup.kktInit [[0, 1], [0, 1, 2]] [[], [2]] = .ok k ∧ Sup.Spec.NoShift k :=
  ⟨_, rfl, Sup.noShift_of_bounded (n := 4) (by decide +kernel) (by decide +kernel)⟩

theorem exProgram_usable (w : Linear.Ws ℝ) : Usable (exProgram w) := by
  refine ⟨rfl, ex_kkt, ?_, ?_⟩
  · intro i c dv h1 h2
    match i, h1, h2 with
    | 0, h1, h2 =>
      obtain rfl : _ = c := Option.some.inj h1
      obtain rfl : _ = dv := Option.some.inj h2
      exact ⟨[0, 1], rfl⟩
    | 1, h1, h2 =>
      obtain rfl : _ = c := Option.some.inj h1
      obtain rfl : _ = dv := Option.some.inj h2
      exact ⟨[0, 1], rfl⟩
  · intro u
    have h1 : (exProgram w).N = 3 := rfl
    have h2 : (exProgram w).es.map Entry.vars = [[0, 1], [0, 1, 2]] := rfl
    rw [h1, h2]
    simp only [List.mem_cons, List.not_mem_nil, or_false, exists_eq_or_imp, exists_eq_left]
    omega

theorem exProgram_data (w : Linear.Ws ℝ) : ∀ e ∈ (exProgram w).es, Data e (exProgram w).N := by
  intro e he
  simp only [exProgram, List.mem_cons, List.not_mem_nil, or_false] at he
  rcases he with rfl | rfl
  · exact ⟨by simp, by simp [exProgram, Program.N], rfl⟩
  · exact ⟨by simp, by simp [exProgram, Program.N], rfl, rfl⟩

/-- The hypotheses of the theorems above. -/
example (w : Linear.Ws ℝ) (mat : Sup.Store ℝ) : ∃ b, objective Gap.exEnv (exProgram w) mat = .ok b ∧ b.1 = 3 ∧
    ∃ β : ℝ, ∀ z, Gap.Spec.Feasible (exProgram w).es z → value b z ≤ β := by
  obtain ⟨b, h⟩ := C78_defined Gap.exEnv Gap.exEnv_sqrt _ (exProgram_usable w) (exProgram_data w)
    (by simp [Iteration.Spec.Sized, exProgram]) mat
  exact ⟨b, h, (C78_value _ Gap.exEnv_sqrt _ (exProgram_data w) (by simp [Iteration.Spec.Sized, exProgram]) _ _ h).1,
    (C78_bounded _ Gap.exEnv_sqrt _ (exProgram_data w) (by simp [Iteration.Spec.Sized, exProgram]) _ _ h).1⟩

/-- The same without the equation. -/
noncomputable def exPlain (w : Linear.Ws ℝ) : Program ℝ :=
  { exProgram w with
    es := (exProgram w).es.take 1, duals := [[]], sys := [⟨2, fun _ _ => 0, fun _ => 0, fun _ => 0, 0, 0⟩] }

theorem ex_kkt_plain : ∃ k, Sup.kktInit [[0, 1]] [[]] = .ok k ∧ Sup.Spec.NoShift k :=
  ⟨_, rfl, Sup.noShift_of_bounded (n := 4) (by decide +kernel) (by decide +kernel)⟩

example (w : Linear.Ws ℝ) (mat : Sup.Store ℝ) : ∃ b, objective Gap.exEnv (exPlain w) mat = .ok b ∧
    ∀ u < 2, (withObjective (exPlain w) b).b u = b.2 u := by
  have hd : ∀ e ∈ (exPlain w).es, Data e (exPlain w).N := by
    intro e he
    have he : e ∈ (exProgram w).es.take 1 := he
    simp only [exProgram, List.take_succ_cons, List.take_zero, List.mem_cons, List.not_mem_nil, or_false] at he
    subst he
    exact ⟨by simp, by simp [exPlain, exProgram, Program.N], rfl⟩
  obtain ⟨b, h⟩ := C78_defined Gap.exEnv Gap.exEnv_sqrt (exPlain w) ⟨rfl, ex_kkt_plain, fun i c dv h1 h2 => by
    match i, h1, h2 with
    | 0, h1, h2 =>
      obtain rfl : _ = c := Option.some.inj h1
      obtain rfl : _ = dv := Option.some.inj h2
      exact ⟨[0, 1], rfl⟩, fun u => by
    have h1 : (exPlain w).N = 2 := rfl
    have h2 : (exPlain w).es.map Entry.vars = [[0, 1]] := rfl
    rw [h1, h2]
    simp only [List.mem_cons, List.not_mem_nil, or_false, exists_eq_left]
    omega⟩ hd rfl mat
  exact ⟨b, h, C78_solve_partial _ _ (by simp [exPlain]) _ _ h⟩

/-- With an equation the result has a row for its multiplier.  `AddLinearCost` refuses a vector of that size, prints a
message and returns `true`; `Solve(b, …)` does not look at the returned value and solves the program for the
objective zero, although the given objective distinguishes feasible points. -/
theorem C78_equations_violated : ∃ (P : Program ℝ) (b : Column ℝ), Usable P ∧ (∀ e ∈ P.es, Data e P.N) ∧
    Iteration.Spec.Sized P.es P.sys ∧ objective Gap.exEnv P (fun _ => 0) = .ok b ∧
    (∃ z z', Gap.Spec.Feasible P.es z ∧ Gap.Spec.Feasible P.es z' ∧ value b z < value b z') ∧
    (addLinearCost (clearLinearCosts P) (b.1, fun u => -b.2 u)).2 = true ∧
    ∀ u, (withObjective P b).b u = 0 := by
  set P := exProgram ⟨fun _ => 0, fun _ => 0, fun _ => 0⟩ with hP
  have hs : Iteration.Spec.Sized P.es P.sys := by simp [Iteration.Spec.Sized, P, exProgram]
  obtain ⟨b, h⟩ := C78_defined Gap.exEnv Gap.exEnv_sqrt P (exProgram_usable _) (exProgram_data _) hs fun _ => 0
  obtain ⟨h1, β, h2⟩ := C78_value _ Gap.exEnv_sqrt P (exProgram_data _) hs _ b h
  have h3 : P.m ≠ b.1 := by
    rw [h1]
    decide
  have hf : ∀ a : ℝ, 0 ≤ a → a ≤ 1 / 2 → Gap.Spec.Feasible P.es (fun u => if u = 0 then a else if u = 1 then -a else 0) := by
    intro a ha ha' e he
    simp only [P, exProgram, List.mem_cons, List.not_mem_nil, or_false] at he
    rcases he with rfl | rfl
    · intro r hr
      have : r = 0 ∨ r = 1 := by simp at hr; omega
      rcases this with rfl | rfl <;> simp [sum_range_succ] <;> linarith
    · intro r hr
      simp [sum_range_succ]
  refine ⟨P, b, exProgram_usable _, exProgram_data _, hs, h, ⟨_, _, hf 0 le_rfl (by norm_num), hf (1 / 2) (by norm_num) le_rfl,
    ?_⟩, ?_, fun u => ?_⟩
  · rw [h2, h2]
    simp [traces, trace, P, exProgram, sum_range_succ]
    norm_num
  · unfold addLinearCost
    split <;> rfl
  · have h4 : ¬ (clearLinearCosts P).m = b.1 := h3
    simp only [withObjective, addLinearCost, if_neg h4]
    simp [clearLinearCosts, Program.b]

end Verif.Feasible
