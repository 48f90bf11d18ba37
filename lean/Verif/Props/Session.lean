import Verif.Lemmas.SessionRun
import Verif.Lemmas.WarmExample

/-!
# C87: several solves of one program

`Solve` may be called repeatedly, with `initialization_mode` 1 to start from the scaling points of the last call.  For
programs of vector constraints and convex quadratic costs, all calls are defined and answer what C75 says of a single
one, if no warm start follows a call that prepared dual variables; with such a call before it, a warm start can report
success and return an infeasible point.
-/

namespace Verif.Whole

open Finset Dual Iteration.Spec Spec

/-- A solve from any start: a cold one, or one from scaling points in the interior of the cones.  If no dual variables
are prepared, then the next solve can start from where this one ended.  Partial: the point is good if the norm of the
last direction is at most one, which a successful return does not imply. -/
theorem C87_resume_partial (v : Env ℝ) (hv : ∀ x, 0 ≤ x → SolveLoop.Spec.SqrtAt v.sqrt x) (he : ∀ x, 0 < v.exp x)
    (hs : ∀ n, MatrixExp.Spec.Solves (v.solve n)) (l : Linear ℝ) (hl : Dense.Spec.LltContract l.llt)
    (hc : Dense.Spec.LltComplete l.llt) (hqr : l.useQr = false) (P : Program ℝ) (hP : VectorProgram P)
    (p : SolveLoop.Prog ℝ) (hp : Belongs P p) (cfg : SolveLoop.Config ℝ) (hcfg : Options P.quadratic cfg)
    (capacity : Int) (hmode : cfg.mode = 0 ∨ (Resumable P p capacity ∧ cfg.maxIter ≤ capacity))
    (c : SolveLoop.Oracle ℝ) :
    ∃ r es, solveAt v l P p cfg c = .ok r ∧ r.es = some es ∧ Answers P r ∧ Keeps P.es es ∧ Belongs P r.res.prog ∧
      (cfg.prepareDual = false →
        Resumable { P with es := es } r.res.prog (if cfg.mode = 0 then cfg.maxIter else capacity)) :=
  resume_ok hv he hs hl hc hqr hP hp hcfg hmode c

/-- Several solves of one program with changing linear costs, cold and warm starts.  All of them are defined, and
each one answers for its own cost.  Partial as above; and no warm start may follow a solve that prepared dual
variables (`C87_violated`) or need more iterations than the last cold one (F5). -/
theorem C87_session_partial (v : Env ℝ) (hv : ∀ x, 0 ≤ x → SolveLoop.Spec.SqrtAt v.sqrt x) (he : ∀ x, 0 < v.exp x)
    (hs : ∀ n, MatrixExp.Spec.Solves (v.solve n)) (l : Linear ℝ) (hl : Dense.Spec.LltContract l.llt)
    (hc : Dense.Spec.LltComplete l.llt) (hqr : l.useQr = false) (P : Program ℝ) (hP : VectorProgram P)
    (status : SolveLoop.Status) (qs : List (Request ℝ)) (hf : Follow P none qs) :
    ∃ rs, session v l P (P.fresh status) qs = .ok rs ∧
      List.Forall₂ (fun q r => Answers { P with cost := q.cost } r) qs rs :=
  session_ok hv he hs hl hc hqr hP qs P.es _ none (keeps_self hP.data) ⟨rfl, rfl⟩ (fun _ h => by cases h) hf

/-- With options as in `C75_centered`, each solve of the session that reports success leaves a feasible point in the
array that is optimal for its own cost, up to a gap. -/
theorem C87_centered (v : Env ℝ) (hv : ∀ x, 0 ≤ x → SolveLoop.Spec.SqrtAt v.sqrt x) (he : ∀ x, 0 < v.exp x)
    (hs : ∀ n, MatrixExp.Spec.Solves (v.solve n)) (l : Linear ℝ) (hl : Dense.Spec.LltContract l.llt)
    (hc : Dense.Spec.LltComplete l.llt) (hqr : l.useQr = false) (P : Program ℝ) (hP : VectorProgram P)
    (status : SolveLoop.Status) (qs : List (Request ℝ)) (hf : Follow P none qs)
    (hall : ∀ q ∈ qs, q.cfg.finalTol ≤ 1 ∧ q.cfg.maxIter ≤ q.cfg.finalSteps + 2) :
    ∃ rs, session v l P (P.fresh status) qs = .ok rs ∧
      List.Forall₂ (fun q r => Correct { P with cost := q.cost } r) qs rs := by
  obtain ⟨rs, h1, h2⟩ := C87_session_partial v hv he hs l hl hc hqr P hP status qs hf
  refine ⟨rs, h1, ?_⟩
  have h3 := session_solves qs h1
  have h4 := follow_steps qs hf
  clear h1 hf
  induction h2 with
  | nil => exact .nil
  | cons a _ ih =>
    rw [List.forall₂_cons] at h3
    obtain ⟨⟨l', P', p', h5⟩, h6⟩ := h3
    have hq := hall _ List.mem_cons_self
    exact .cons (correct_of h5 a (h4 _ List.mem_cons_self) hq.1 hq.2)
      (ih (fun q hq => hall q (List.mem_cons_of_mem _ hq)) h6 fun q hq => h4 q (List.mem_cons_of_mem _ hq))

/-! ### Examples -/

/-- The default options (`/repo/conex/cone_program.h` 17-38) for a cold start, and for a warm start. -/
noncomputable def exOptions (mode : Int) : SolveLoop.Config ℝ :=
  ⟨false, mode, 1000, 10 ^ 4, false, 5, 1 / 100, 0, 0, 2, 25, 10 ^ 5, 10 ^ 10, true⟩

theorem exOptions_good (mode : Int) : Options false (exOptions mode) :=
  ⟨by norm_num [exOptions], by norm_num [exOptions], by norm_num [exOptions], Or.inl rfl⟩

/-- The hypotheses of `C87_session_partial`: maximise `y` subject to `-1 ≤ y ≤ 1`, then minimise it from a warm start,
then maximise it again. -/
example (w : Linear.Ws ℝ) (mat : Sup.Store ℝ) (status : SolveLoop.Status) (c : SolveLoop.Oracle ℝ) :
    ∃ rs, session Gap.exEnv (exSolver mat) (exLinear (-1) 2 w) ((exLinear (-1) 2 w).fresh status)
        [⟨fun _ => -1, exOptions 0, c, (exLinear (-1) 2 w).sys, mat⟩,
         ⟨fun _ => 1, exOptions 1, c, (exLinear (-1) 2 w).sys, mat⟩,
         ⟨fun _ => -1, exOptions 1, c, (exLinear (-1) 2 w).sys, mat⟩] = .ok rs ∧ rs.length = 3 := by
  obtain ⟨rs, h1, h2⟩ := C87_session_partial Gap.exEnv Gap.exEnv_sqrt Real.exp_pos Iteration.ex_solves (exSolver mat)
    Sup.realLlt_contract Sup.realLlt_complete rfl (exLinear (-1) 2 w) (exLinear_good _ 1 w).1 status
    [⟨fun _ => -1, exOptions 0, c, (exLinear (-1) 2 w).sys, mat⟩,
     ⟨fun _ => 1, exOptions 1, c, (exLinear (-1) 2 w).sys, mat⟩,
     ⟨fun _ => -1, exOptions 1, c, (exLinear (-1) 2 w).sys, mat⟩] (by
      have hz := (exLinear_good (-1) 1 w).1.sized
      exact ⟨exOptions_good 0, hz, Or.inl rfl, exOptions_good 1, hz, Or.inr ⟨25, rfl, le_rfl⟩,
        exOptions_good 1, hz, Or.inr ⟨25, rfl, le_rfl⟩, trivial⟩)
  exact ⟨rs, h1, h2.length_eq.symm⟩

/-- The hypotheses of `C87_centered`: the same with 23 final centering steps and two solves. -/
example (w : Linear.Ws ℝ) (mat : Sup.Store ℝ) (status : SolveLoop.Status) (c : SolveLoop.Oracle ℝ) :
    ∃ r₁ r₂, session Gap.exEnv (exSolver mat) (exLinear (-1) 2 w) ((exLinear (-1) 2 w).fresh status)
        [⟨fun _ => -1, { exOptions 0 with finalSteps := 23 }, c, (exLinear (-1) 2 w).sys, mat⟩,
         ⟨fun _ => 1, { exOptions 1 with finalSteps := 23 }, c, (exLinear (-1) 2 w).sys, mat⟩] = .ok [r₁, r₂] ∧
      Correct (exLinear (-1) 2 w) r₁ ∧ Correct (exLinear 1 2 w) r₂ := by
  have ho : ∀ mode, Options false { exOptions mode with finalSteps := 23 } := fun mode =>
    ⟨(exOptions_good mode).mu, by norm_num, (exOptions_good mode).iterations, Or.inl rfl⟩
  obtain ⟨rs, h1, h2⟩ := C87_centered Gap.exEnv Gap.exEnv_sqrt Real.exp_pos Iteration.ex_solves (exSolver mat)
    Sup.realLlt_contract Sup.realLlt_complete rfl (exLinear (-1) 2 w) (exLinear_good _ 1 w).1 status
    [⟨fun _ => -1, { exOptions 0 with finalSteps := 23 }, c, (exLinear (-1) 2 w).sys, mat⟩,
     ⟨fun _ => 1, { exOptions 1 with finalSteps := 23 }, c, (exLinear (-1) 2 w).sys, mat⟩] (by
      have hz := (exLinear_good (-1) 1 w).1.sized
      exact ⟨ho 0, hz, Or.inl rfl, ho 1, hz, Or.inr ⟨25, rfl, le_rfl⟩, trivial⟩) (by
      intro q hq
      simp only [List.mem_cons, List.not_mem_nil, or_false] at hq
      rcases hq with rfl | rfl <;> norm_num [exOptions])
  obtain ⟨r₁, l₁, g1, g2, rfl⟩ := List.forall₂_cons_left_iff.1 h2
  obtain ⟨r₂, l₂, g3, g4, rfl⟩ := List.forall₂_cons_left_iff.1 g2
  rw [List.forall₂_nil_left_iff] at g4
  subst g4
  exact ⟨r₁, r₂, h1, g1, g3⟩

/-- The hypotheses of `C87_resume_partial` for a warm start: the scaling points are ones. -/
example (mat : Sup.Store ℝ) (c : SolveLoop.Oracle ℝ) :
    ∃ r, solveAt Gap.exEnv (exSolver mat) (exLinear (-1) 2 ⟨fun _ => 1, fun _ => 0, fun _ => 0⟩)
      ⟨false, 1, true, some ⟨25, some 3, some (1 / 2), some (1 / 3), []⟩, ⟨true, some 3, false, false⟩⟩ (exOptions 1) c =
        .ok r := by
  have hgood : ∀ e ∈ (exLinear (-1) 2 ⟨fun _ => 1, fun _ => 0, fun _ => 0⟩).es, Gap.Spec.Good e 1 :=
    identity_good (es := (exLinear (-1) 2 ⟨fun _ => 1, fun _ => 0, fun _ => 0⟩).es)
      (exLinear_good (-1) 1 ⟨fun _ => 1, fun _ => 0, fun _ => 0⟩).1.data
  obtain ⟨r, es, h1, -⟩ := C87_resume_partial Gap.exEnv Gap.exEnv_sqrt Real.exp_pos Iteration.ex_solves (exSolver mat)
    Sup.realLlt_contract Sup.realLlt_complete rfl (exLinear (-1) 2 ⟨fun _ => 1, fun _ => 0, fun _ => 0⟩)
    (exLinear_good _ 1 _).1
    ⟨false, 1, true, some ⟨25, some 3, some (1 / 2), some (1 / 3), []⟩, ⟨true, some 3, false, false⟩⟩ ⟨rfl, rfl⟩
    (exOptions 1) (exOptions_good 1) 25 (Or.inr ⟨⟨rfl, hgood, _, _, _, rfl, rfl, rfl, by norm_num, by norm_num, nofun, rfl⟩,
      le_rfl⟩) c
  exact ⟨r, h1⟩

/-- A warm start after a solve that prepared dual variables, which overwrites the scaling points
(`/repo/conex/linear_constraint.cc` 170-175): the second solve reports success and the norm of its last direction is
zero, but the point in its array violates the only constraint `y ≤ 1` (F87). -/
theorem C87_violated (w : Linear.Ws ℝ) (mat : Sup.Store ℝ) (status : SolveLoop.Status) (c : SolveLoop.Oracle ℝ) :
    ∃ r₁ r₂ st z, session Gap.exEnv (exSolver mat) (exLinear 1 1 w) ((exLinear 1 1 w).fresh status)
        [⟨fun _ => 1, forced, c, (exLinear 1 1 w).sys, mat⟩, ⟨fun _ => 1, forcedWarm, c, (exLinear 1 1 w).sys, mat⟩] =
          .ok [r₁, r₂] ∧ r₁.res.ret = true ∧
      r₂.res.ret = true ∧ r₂.last = some st ∧ st.norm = 0 ∧ r₂.array = some z ∧
      ¬ Gap.Spec.Feasible (exLinear 1 1 w).es z := by
  obtain ⟨κ, hκ⟩ : ∃ κ, SolveLoop.kMin Gap.exEnv.sqrt forced = κ := ⟨_, rfl⟩
  obtain ⟨r₁, w', stats, h1, hret, h2, h3, h4, h5, h6, h7, h8, h9⟩ := one_cold hκ w mat status c
  obtain ⟨r₂, st, es, z, g1, g2, g3, g4, g5, g6, g7⟩ := one_warm hκ w' h3
    ⟨1, fun _ _ => 0, fun _ => 0, fun _ => 0, 0, 0⟩ rfl mat r₁.res.prog h4 h5 stats h6 h7 h8 h9 c
  refine ⟨r₁, r₂, st, z, ?_, hret, g3, g4, g5, g6, fun h => ?_⟩
  · have h1' : solveAt Gap.exEnv { exSolver mat with mat := mat } { exLinear 1 1 w with cost := fun _ => 1, sys := (exLinear 1 1 w).sys }
        ((exLinear 1 1 w).fresh status) forced c = .ok r₁ := h1
    unfold session
    simp only
    rw [h1']
    simp only [Outcome.bind_ok, h2]
    unfold session
    simp only
    have g1' : solveAt Gap.exEnv { exSolver mat with mat := mat }
        { exLinear 1 1 w with es := [⟨[0], .linear oneRow w'⟩], cost := fun _ => 1, sys := (exLinear 1 1 w).sys }
        r₁.res.prog forcedWarm c = .ok r₂ := g1
    rw [g1']
    simp only [Outcome.bind_ok, g2, session]
  · have := h _ List.mem_cons_self 0 Nat.zero_lt_one
    simp at this
    linarith

end Verif.Whole
