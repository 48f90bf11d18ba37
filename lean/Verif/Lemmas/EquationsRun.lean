import Verif.Lemmas.Equations
import Verif.Lemmas.IterationTotal
import Verif.Props.KktSolve

/-!
# Iterations of programs with equations (C100)
-/

namespace Verif.MatrixCentering

open Finset Verif.Dual Iteration.Spec
open Iteration (State Step Setup)
open Gap.Spec (System Separate)
open Gap (SameProg)
open Spec

/-- With multipliers, `Factor` and `SolveInPlace` are defined if no supernode is empty. -/
theorem ldlt_total {R : Type} [Field R] [LinearOrder R] [IsStrictOrderedRing R] {cs duals : List (List Nat)}
    (hnd : ∀ c ∈ cs, c.Nodup) (hlen : duals.length = cs.length) {k : Sup.Kkt} (hk : Sup.kktInit cs duals = .ok k) {n : Nat}
    (hall : ∀ v, v < n ↔ ∃ c ∈ cs, v ∈ c) (hmul : ∃ d ∈ duals, d ≠ []) (hpos : ∀ n ∈ k.data.supernodeSize, 0 < n)
    (llt : Nat → (Nat → Nat → R) → Option (Nat → Nat → R)) (qr : Nat → (Nat → Nat → R) → (Nat → R) → Nat → R)
    {w : Sup.Workspace} (hw : Sup.workspaceInit k.data.cliques k.data.supernodeSize = .ok w) (m : Sup.Store R)
    (iters : Nat) :
    ∃ s', (Sup.Solver.mk k w m false iters none none).factor llt = .ok (some s') ∧
      ∀ b, ∃ x, s'.solveInPlace qr n b = .ok x := by
  obtain ⟨sp, P, hp, hne, hN, hptn, hptl, hocc, hdu, hcs⟩ := Sup.kkt_pattern hnd hlen hk
  have hmem : ∀ v, v ∈ k.pt ↔ v ∈ List.range n := by
    intro v
    rw [← hocc v, ← hall v, List.mem_range]
  have hperm : k.pt.Perm (List.range n) :=
    (List.perm_ext_iff_of_nodup hptn List.nodup_range).2 hmem
  have hNn : k.data.N = n := by
    rw [← hptl, hperm.length_eq, List.length_range]
  obtain ⟨w', hw', h1⟩ := Sup.C20_ldlt_total_partial (R := R) _ _ _ P hp hne
  rw [hw, Outcome.ok.injEq] at hw'
  subst hw'
  obtain ⟨F, hF⟩ := (h1 m).1 hpos
  have hd : (k.duals.all fun d => decide (d.length = 0)) = false := by
    obtain ⟨d, h2, h3⟩ := hmul
    rw [hdu, Bool.eq_false_iff]
    intro h4
    rw [List.all_eq_true] at h4
    have h5 := h4 d h2
    rw [decide_eq_true_eq, List.length_eq_zero_iff] at h5
    exact h3 h5
  have hall' : (k.pt.all fun v => decide (v < n)) = true := by
    rw [List.all_eq_true]
    intro v hv
    simpa using hperm.mem_iff.1 hv
  by_cases hi : iters = 0
  · subst hi
    refine ⟨⟨k, w, F.S, false, 0, none, some (.ldlt F)⟩, ?_, fun b => ?_⟩
    · simp only [Sup.Solver.factor, Sup.Solver.save, Sup.Solver.factorCore]
      simp only [Bool.false_eq_true, or_false, lt_irrefl, if_false, hd, hF, Outcome.bind]
    · refine ⟨Sup.unpermute k (Sup.Fact.apply qr w (.ldlt F) (Sup.permute k b)), ?_⟩
      unfold Sup.Solver.solveInPlace
      simp only [hNn, hall']
      simp
  · obtain ⟨j, rfl⟩ := Nat.exists_eq_succ_of_ne_zero hi
    refine ⟨⟨k, w, F.S, false, j + 1, some (Sup.Solver.mk k w m false (j + 1) none none).dense, some (.ldlt F)⟩, ?_,
      fun b => ?_⟩
    · simp only [Sup.Solver.factor, Sup.Solver.save, Sup.Solver.factorCore]
      simp only [Bool.false_eq_true, or_false, Nat.succ_eq_add_one, Nat.zero_lt_succ, if_false, if_true, hd, hF, Outcome.bind]
    · refine ⟨Sup.refine k (Sup.Solver.mk k w m false (j + 1) none none).dense (Sup.Fact.apply qr w (.ldlt F)) b (j + 1)
        (Sup.unpermute k (Sup.Fact.apply qr w (.ldlt F) (Sup.permute k b))), ?_⟩
      unfold Sup.Solver.solveInPlace
      simp only [hNn, hall']
      simp

theorem schurAll_on {sqrt : ℝ → ℝ} (hv : ∀ x, 0 ≤ x → SolveLoop.Spec.SqrtAt sqrt x) {N : Nat}
    (es : List (Entry ℝ)) : ∀ {sys : List (Schur.Sys ℝ)}, (∀ e ∈ es, Gap.Spec.Good e N) →
    (∀ e ∈ es, Usable e.item ∨ ∃ o, e.item = .equality o) → Sized es sys →
    ∃ sys', Iteration.schurAll sqrt es sys = .ok sys' := by
  induction es with
  | nil => exact fun _ _ _ => ⟨[], rfl⟩
  | cons e es ih =>
    intro sys hg hu hs
    cases sys with
    | nil => simp [Sized] at hs
    | cons s sys =>
      simp only [Sized, List.map_cons, List.cons.injEq] at hs
      obtain ⟨sys', h3⟩ := ih (fun e he => hg e (List.mem_cons_of_mem _ he))
        (fun e he => hu e (List.mem_cons_of_mem _ he)) hs.2
      have h1 : ∃ t, e.item.schur sqrt s = .ok t := by
        rcases hu e List.mem_cons_self with hu | ⟨o, ho⟩
        · obtain ⟨t, h1, -⟩ := Iteration.item_form hv (hg e List.mem_cons_self) hu s hs.1
          exact ⟨t, h1⟩
        · have hge := hg e List.mem_cons_self
          obtain ⟨vars, x⟩ := e
          subst ho
          obtain ⟨-, -, h4, h5⟩ := hge
          simp only at h5 hs
          simp only [Item.schur, Equality.schur]
          rw [if_neg (by omega)]
          exact ⟨_, rfl⟩
      obtain ⟨t, h1⟩ := h1
      exact ⟨t :: sys', by simp only [Iteration.schurAll, h1, h3, Outcome.bind_ok]⟩

theorem prepare_on {v : Env ℝ} (hv : ∀ x, 0 ≤ x → SolveLoop.Spec.SqrtAt v.sqrt x) (he : ∀ x, 0 < v.exp x)
    {N : Nat} (c : ℝ) (y : Nat → ℝ) (es : List (Entry ℝ)) : ∀ a b : ℝ, (∀ e ∈ es, Gap.Spec.Good e N) →
    (∀ e ∈ es, Usable e.item ∨ ∃ o, e.item = .equality o) → ∃ es' A B, prepareLoop v c N y a b es = .ok (es', A, B) ∧
      ∀ size, ∃ es'', Dual.takeStep v size es' = .ok es'' := by
  induction es with
  | nil => exact fun a b _ _ => ⟨[], a, b, rfl, fun size => ⟨[], rfl⟩⟩
  | cons e es ih =>
    intro a b hg hu
    obtain ⟨vars, x⟩ := e
    have hge := hg _ List.mem_cons_self
    have h0 : ∃ x' n β, x.prepareStep v c vars.length (fun j => y (vars.getD j 0)) = .ok (x', n, β) ∧
        ∀ size, ∃ x'', x'.takeStep v size = .ok x'' := by
      rcases hu _ List.mem_cons_self with hu | ⟨o, ho⟩
      · exact Iteration.item_total hv he hge hu c _
      · simp only at ho
        subst ho
        obtain ⟨-, -, h4, h5⟩ := hge
        simp only at h5
        refine ⟨.equality { o with lambda := fun i => y (vars.getD (vars.length - o.nb + i) 0) }, some 0, 0, ?_,
          fun size => ⟨_, rfl⟩⟩
        simp only [Item.prepareStep, Equality.prepareStep]
        rw [if_neg (by omega)]
        rfl
    obtain ⟨x', n, β, h1, h2⟩ := h0
    obtain ⟨es', A, B, h3, h4⟩ := ih (updateNorm a n) (b + β) (fun e he => hg e (List.mem_cons_of_mem _ he))
      (fun e he => hu e (List.mem_cons_of_mem _ he))
    refine ⟨⟨vars, x'⟩ :: es', A, B, ?_, fun size => ?_⟩
    · simp only [prepareLoop, gather_ok hge.2.1, Outcome.bind_ok, h1, h3]
    · obtain ⟨x'', h5⟩ := h2 size
      obtain ⟨es'', h6⟩ := h4 size
      exact ⟨⟨vars, x''⟩ :: es'', by simp only [Dual.takeStep, h5, h6, Outcome.bind_ok]⟩

/-- An iteration is defined. -/
theorem iterate_on {v : Env ℝ} (hv : ∀ x, 0 ≤ x → SolveLoop.Spec.SqrtAt v.sqrt x) (he : ∀ x, 0 < v.exp x)
    {p : Setup ℝ} {duals : List (List Nat)} {x : State ℝ} (hr : ReadyOn p duals x) (k : ℝ) :
    ∃ st x', Iteration.iterate v p k x = .ok (some (st, x')) := by
  obtain ⟨hb, hmul, hpos, hg, hu, hz, -⟩ := hr
  obtain ⟨sys, h1⟩ := schurAll_on hv x.es hg hu hz
  have hnd : ∀ c ∈ x.es.map Entry.vars, c.Nodup := by
    intro c hc
    obtain ⟨e, he, rfl⟩ := List.mem_map.1 hc
    exact (hg e he).1
  obtain ⟨w, m, h3, -⟩ := Sup.C21_assembled_system _ duals hnd (by simp [hb.length]) hb.last p.kkt hb.kkt hb.noShift
    p.N hb.occurs p.llt hb.llt p.qr (fun i => (Iteration.sysAt sys i).G) x.mat p.refine
  obtain ⟨solver, h5, h6⟩ := ldlt_total hnd (by simp [hb.length]) hb.kkt hb.occurs hmul hpos p.llt p.qr
    (Sup.assemble_workspace h3) m p.refine
  obtain ⟨r, h7, -⟩ := Sup.C19_residuals p.N (x.es.map Entry.vars)
    (fun i => KktError.resid (Iteration.sysAt sys i)) hnd fun c hc u hu => (hb.occurs u).2 ⟨c, hc, hu⟩
  obtain ⟨y, h8⟩ := h6 (Iteration.rhs p k r)
  obtain ⟨es', A, B, h9, h10⟩ := prepare_on hv he (k * p.cs) y x.es (-1) 0 hg hu
  obtain ⟨es'', h11⟩ := h10 (SolveLoop.stepSize A)
  refine ⟨⟨y, A, B, KktError.byValue p.N p.b y k p.cs, KktError.cxValue p.N r y k p.bs p.cs, solver.fact⟩,
    ⟨es'', sys, solver.mat⟩, ?_⟩
  have h9' : Dual.prepareStep v (k * p.cs) p.N y x.es = .ok (es', A, B) := h9
  unfold Iteration.iterate Iteration.factorize Iteration.advance
  simp only [h1, h3, h7, hb.mode, h5, h8, h9', h11, Outcome.bind_ok]

/-- The linear system of an iteration without replaced pivots. -/
theorem system_on {v : Env ℝ} {p : Setup ℝ} {duals : List (List Nat)} {x x' : State ℝ} (hr : ReadyOn p duals x) {k : ℝ}
    {st : Step ℝ} (h : Iteration.iterate v p k x = .ok (some (st, x'))) (hu : Unregularized st) :
    System v.sqrt p.N p.b k p.bs p.cs x.es st.y := by
  obtain ⟨⟨s, r, h1, h2, -⟩, -⟩ := Iteration.iterate_values hr.built (fun e he => (hr.good e he).1) hr.sized h hu
  exact Infeasible.system_of h1 h2

/-- An iteration without replaced pivots and without steps that are too long. -/
theorem iterate_decrease_on {v : Env ℝ} (hv : ∀ x, 0 ≤ x → SolveLoop.Spec.SqrtAt v.sqrt x) (hexp : v.exp = Real.exp)
    (htri : Lmi.Spec.TriEigenvalues v.tri) (hso : ∀ n, MatrixExp.Spec.Solves (v.solve n)) {p : Setup ℝ}
    {duals : List (List Nat)} {x x' : State ℝ} (hr : ReadyOn p duals x) (hcom : CommonUpdate x.es) {k : ℝ} {st : Step ℝ}
    (h : Iteration.iterate v p k x = .ok (some (st, x'))) (hu : Unregularized st)
    (hb : ∀ e ∈ x.es, Short (k * p.cs) (SolveLoop.stepSize st.norm) (unknowns e st.y) e.item)
    {z : Nat → ℝ} (hz : CentralOn x.es p.N (fun u => k * p.bs * p.b u) (k * p.cs) z) :
    ReadyOn p duals x' ∧ CloserOn p.N (fun u => k * p.bs * p.b u) (k * p.cs) z (SolveLoop.stepSize st.norm) st.normsqrd
      x.es x'.es := by
  obtain ⟨-, h1, h2⟩ := Iteration.iterate_values hr.built (fun e he => (hr.good e he).1) hr.sized h hu
  obtain ⟨-, -, -, -, es', -, -, -, -, -, -, -, h3, h4, -⟩ := Iteration.iterate_ok h
  have hc := program_decrease_on hv hexp htri hso hr.good hcom hr.separate h3 h4 hb (system_on hr h hu) hz
  refine ⟨⟨Iteration.built_congr hr.built h2, hr.multipliers, hr.blocks, hc.good, fun e he => ?_, h1,
    hc.same.separate hr.separate⟩, hc⟩
  obtain ⟨i, hi⟩ := List.getElem?_of_mem he
  obtain ⟨hlen, hnth⟩ := Whole.forall₂_nth (Gap.prepare_take x.es h3 h4)
  have hi' : i < x.es.length := hlen ▸ (List.getElem?_eq_some_iff.1 hi).1
  obtain ⟨-, y, n, b, h5, h6⟩ := hnth i hi'
  rw [Whole.nth_of hi] at h6
  rcases hr.usable _ (Whole.nth_mem hi') with h7 | ⟨o, ho⟩
  · exact Or.inl ((Iteration.item_same h5 h6).2.1.2 h7)
  · rw [ho] at h5
    obtain ⟨-, l, h7⟩ := equality_step h5 h6
    exact Or.inr ⟨_, h7⟩

theorem distance_nonneg_on {N : Nat} {es : List (Entry ℝ)} (hg : ∀ e ∈ es, Gap.Spec.Good e N)
    (hu : ∀ e ∈ es, Usable e.item ∨ ∃ o, e.item = .equality o) {g : Nat → ℝ} {c : ℝ} {z : Nat → ℝ}
    (hz : CentralOn es N g c z) : 0 ≤ distance es c z :=
  sum_nonneg fun i hi => by
    have hm := Whole.nth_mem (mem_range.1 hi)
    exact separation_nonneg_on (vars := (Whole.Spec.nth es i).vars) (hg _ hm) (hu _ hm) (hz.inside _ hm)

/-- The solution of the linear system satisfies the equations. -/
theorem equations_on {v : Env ℝ} {p : Setup ℝ} {duals : List (List Nat)} {x x' : State ℝ} (hr : ReadyOn p duals x) {k : ℝ}
    {st : Step ℝ} (h : Iteration.iterate v p k x = .ok (some (st, x'))) (hu : Unregularized st) :
    Equations x.es (k * p.cs) st.y := by
  obtain ⟨s₀, s, h0, hs, hy⟩ := system_on hr h hu
  intro e he o ho r hr'
  obtain ⟨i, hi⟩ := List.getElem?_of_mem he
  have hm := multipliers hr.separate hr.good hy hi o ho r hr'
  have hge := hr.good e he
  obtain ⟨vars, it⟩ := e
  simp only at ho
  subst ho
  obtain ⟨-, -, h1, h2⟩ := hge
  simp only at h2
  obtain ⟨-, e2⟩ := Gap.equality_res (v := v) h1 h2 (h0 i _ hi) (hs i _ hi) (kc := k * p.cs) (unknowns ⟨vars, .equality o⟩ st.y)
  have e3 := (e2 r hr').symm.trans hm
  linarith

/-- Steps do not change the equations. -/
theorem equations_back {v : Env ℝ} {p : Setup ℝ} {x x' : State ℝ} {k c : ℝ} {st : Step ℝ} {y : Nat → ℝ}
    (h : Iteration.iterate v p k x = .ok (some (st, x'))) (hy : Equations x'.es c y) : Equations x.es c y := by
  obtain ⟨-, -, -, -, es', -, -, -, -, -, -, -, h3, h4, -⟩ := Iteration.iterate_ok h
  obtain ⟨hlen, hnth⟩ := Whole.forall₂_nth (Gap.prepare_take x.es h3 h4)
  intro e he o ho r hr
  obtain ⟨i, hi⟩ := List.getElem?_of_mem he
  have hi' : i < x.es.length := (List.getElem?_eq_some_iff.1 hi).1
  obtain ⟨h5, y', n, b, h6, h7⟩ := hnth i hi'
  rw [Whole.nth_of hi] at h5 h6
  rw [ho] at h6
  obtain ⟨-, l, h8⟩ := equality_step h6 h7
  have := hy _ (Whole.nth_mem (hlen.symm ▸ hi')) _ h8 r hr
  unfold unknowns at this ⊢
  rw [h5] at this
  exact this

end Verif.MatrixCentering
