import Verif.Lemmas.DivergenceGrow
import Verif.Lemmas.WholeSearch
import Verif.Props.KktError

/-!
# The loop of a solve (C90, C91, C94)
-/

namespace Verif.Whole

open Finset LineSearch Centering Centering.Spec Whole.Spec Iteration.Spec
open Verif.Dual

theorem noCosts_next {v : Env ℝ} {p : Iteration.Setup ℝ} {k : ℝ} {x x' : Iteration.State ℝ} {st : Iteration.Step ℝ}
    (hp : Polyhedral x.es) (hc : NoCosts x.es) (h : Iteration.iterate v p k x = .ok (some (st, x'))) :
    NoCosts x'.es := by
  obtain ⟨-, -, -, -, es', -, -, -, -, -, -, -, h3, h4, -⟩ := Iteration.iterate_ok h
  obtain ⟨h1, h2⟩ := forall₂_nth (Gap.prepare_take x.es h3 h4)
  intro e he n Q hx
  obtain ⟨i, hi⟩ := List.getElem?_of_mem he
  have hlt := (List.getElem?_eq_some_iff.1 hi).1
  rw [h1] at hlt
  obtain ⟨-, y, a, b, h5, h6⟩ := h2 i hlt
  have := nth_of hi
  subst this
  rcases hp _ (nth_mem hlt) with ⟨o, w, ho⟩ | ⟨m, Q', ho⟩
  · rw [ho] at h5
    simp only [Item.prepareStep, SolveLoop.bind_eq_ok] at h5
    obtain ⟨⟨w', g⟩, -, h7⟩ := h5
    cases g with
    | none => cases h7
    | some g =>
      simp only [Outcome.ok.injEq, Prod.mk.injEq] at h7
      rw [← h7.1] at h6
      simp only [Item.takeStep, Outcome.ok.injEq] at h6
      rw [← h6] at hx
      cases hx
  · exact hc _ (nth_mem hlt) _ _ ho

/-- The KKT error does not exceed a tolerance. -/
theorem stepError_le {v : Env ℝ} (hv : ∀ x, 0 ≤ x → SolveLoop.Spec.SqrtAt v.sqrt x) (he : ∀ x, 0 < v.exp x)
    {p : Iteration.Setup ℝ} {duals : List (List Nat)} {x x' : Iteration.State ℝ} (hr : Ready p duals x)
    (hp : NoCosts x.es) (hq : ∀ e ∈ x.es, ∀ o, e.item ≠ .equality o)
    {k : ℝ} (hk : 0 < k) (hbs : 0 < p.bs) (hcs : 0 < p.cs)
    {st : Iteration.Step ℝ} (h : Iteration.iterate v p k x = .ok (some (st, x'))) {tol : ℝ} (htol : 0 ≤ tol) :
    stepError v.sqrt tol k p.bs p.cs x.es st ≤ tol := by
  have hu := unregularized hv he hr h
  obtain ⟨⟨s, r, h1, h2, h3, h4, h5⟩, -⟩ := Iteration.iterate_values hr.built (fun e he => (hr.good e he).1) hr.sized h hu
  obtain ⟨-, -, -, -, es', -, -, -, -, -, -, -, h6, -⟩ := Iteration.iterate_ok h
  have key := KktError.C72_tolerance_partial v hv p.N st.y p.b k p.bs p.cs hk hbs hcs x.es (fun e he' => ⟨?_, hr.good e he'⟩)
    ?_ s h1 h2 r h3 es' _ _ h6 tol htol
  · unfold stepError
    rw [h4, h5]
    revert key
    generalize KktError.kktError (KktError.cxValue p.N r st.y k p.bs p.cs) (KktError.byValue p.N p.b st.y k p.cs)
      (KktError.sDotX v.sqrt (rank x.es) st.normsqrd k p.bs p.cs) = a
    intro key
    cases a with
    | nan => exact le_rfl
    | ninf => exact le_rfl
    | pinf => cases key
    | fin a =>
      simp only [Ext.lt, decide_eq_false_iff_not, not_lt] at key
      exact key
  · have := hr.good e he'
    have hc := hp e he'
    have h3 := this.2.2
    unfold KktError.Spec.Regular
    cases ho : e.item <;> first | exact this | exact (hc _ _ ho).elim | (rw [ho] at h3; exact h3.elim)
  · intro i e o hi ho
    exact (hq e (List.mem_of_getElem? hi) o ho).elim

/-- What the loop uses about the programs whose constraints satisfy `I`, as long as the directions satisfy `A`. -/
structure Regime (v : Env ℝ) (S : Search ℝ) (p : Iteration.Setup ℝ) (duals : List (List Nat)) (quadratic : Bool)
    (I : List (Entry ℝ) → Prop) (A : Iteration.Step ℝ → Prop) : Prop where
  defined : ∀ (x : Iteration.State ℝ) (f : Iteration.Factored ℝ) (solver : Sup.Solver ℝ), Ready p duals x → I x.es →
    Iteration.factorize v p x = .ok f → f.solver = some solver → ∃ d, divergenceMu v S p x.es f.r solver = .ok d
  short : ∀ st : Iteration.Step ℝ, st.normsqrd ≤ 1 / 2 → A st
  ready : ∀ (x x' : Iteration.State ℝ) (st : Iteration.Step ℝ) (k : ℝ), Ready p duals x → I x.es →
    Iteration.iterate v p k x = .ok (some (st, x')) → A st → Ready p duals x'
  next : ∀ (x x' : Iteration.State ℝ) (st : Iteration.Step ℝ) (k : ℝ), Ready p duals x → I x.es →
    Iteration.iterate v p k x = .ok (some (st, x')) → A st → I x'.es
  error : quadratic = false → ∀ (x x' : Iteration.State ℝ) (st : Iteration.Step ℝ) (k tol : ℝ), Ready p duals x → I x.es →
    0 < k → 0 ≤ tol → Iteration.iterate v p k x = .ok (some (st, x')) → stepError v.sqrt tol k p.bs p.cs x.es st ≤ tol
  norm : ∀ (x x' : Iteration.State ℝ) (st : Iteration.Step ℝ) (k : ℝ), Ready p duals x → I x.es →
    Iteration.iterate v p k x = .ok (some (st, x')) → A st → 0 ≤ st.normsqrd ∧ st.norm ^ 2 ≤ st.normsqrd
  quadratic : ∀ (x x' x'' : Iteration.State ℝ) (st st' : Iteration.Step ℝ) (k : ℝ), Ready p duals x → I x.es →
    Iteration.iterate v p k x = .ok (some (st, x')) → Ready p duals x' →
    Iteration.iterate v p k x' = .ok (some (st', x'')) → st.normsqrd ≤ 1 → st'.normsqrd ≤ 2 * st.normsqrd ^ 2

/-- What holds before every iteration. -/
structure Base (p : Iteration.Setup ℝ) (duals : List (List Nat)) (cfg : SolveLoop.Config ℝ) (I : List (Entry ℝ) → Prop)
    (K : ℝ) (q : State ℝ) : Prop where
  ready : Ready (scaled p 1 1) duals q.x
  regime : I q.x.es
  bScale : q.s.stats.bScale = some 1
  cScale : q.s.stats.cScale = some 1
  cap : q.s.stats.cap = cfg.maxIter
  kMax : q.s.kMax = K
  kkt : q.s.kkt ≤ cfg.kktTol
  aborted : q.s.aborted = false

theorem alike_count {es es' : List (Entry ℝ)} (h : Alike es es') : count es' = count es := by
  have : ∀ es, Centering.Spec.count es = rows es fun _ _ => 1 := fun es => by simp [rows, Centering.Spec.count]
  rw [this, this, h.rows]

/-- The barrier parameter after the candidate `t`. -/
noncomputable def nextK (cfg : SolveLoop.Config ℝ) (sqrt : ℝ → ℝ) (K k t : ℝ) (upd : Bool) : ℝ :=
  SolveLoop.applyLimits (if upd then (if 0 < t then t else k * (1 / 2)) else k) (SolveLoop.kMin sqrt cfg) K

/-- The line search is defined. -/
theorem searchMu_ok {v : Env ℝ} (hv : ∀ x, 0 ≤ x → SolveLoop.Spec.SqrtAt v.sqrt x) (he : ∀ x, 0 < v.exp x)
    {p : Iteration.Setup ℝ} {duals : List (List Nat)} {x : Iteration.State ℝ} (hr : Ready p duals x)
    {S : Search ℝ} {f : Iteration.Factored ℝ} {solver : Sup.Solver ℝ}
    (hf : Iteration.factorize v p x = .ok f) (hsol : f.solver = some solver) : ∃ t, searchMu S p x.es f.r solver = .ok t := by
  obtain ⟨f', solver', y0, y1, hf', hsol', hy0, hy1, -⟩ := search_points hv he hr
  rw [hf, Outcome.ok.injEq] at hf'
  subst hf'
  rw [hsol, Option.some.injEq] at hsol'
  subst hsol'
  obtain ⟨o, h1, t, h2⟩ := entries_defined (S := S) (cs := p.cs) (y0 := y0) (y1 := y1) (N := p.N) x.es (fun e he' => by
      obtain ⟨g1, g2, g3⟩ := hr.good e he'
      refine ⟨g2, fun o w ho => ?_⟩
      rw [ho] at g3
      exact g3.1.le) (out := Interval.default S.big) (by simp [Interval.default]) (by simp [Interval.default])
  exact ⟨t, by simp only [searchMu, hy0, hy1, h1, h2, Outcome.bind_ok]⟩

/-- The choice of the barrier parameter is defined. -/
theorem chosen_ok {v : Env ℝ} (hv : ∀ x, 0 ≤ x → SolveLoop.Spec.SqrtAt v.sqrt x) (he : ∀ x, 0 < v.exp x)
    {p : Iteration.Setup ℝ} {duals : List (List Nat)} {x : Iteration.State ℝ} (hr : Ready p duals x)
    {S : Search ℝ} {f : Iteration.Factored ℝ} {solver : Sup.Solver ℝ}
    (hf : Iteration.factorize v p x = .ok f) (hsol : f.solver = some solver)
    (hd : ∃ d, divergenceMu v S p x.es f.r solver = .ok d) (cfg : SolveLoop.Config ℝ)
    (quadratic upd : Bool) (k : ℝ) : ∃ a, chosenMu v S p cfg quadratic upd k x.es f.r solver = .ok a := by
  obtain ⟨t, ht⟩ : ∃ t, searchIf S p x.es f.r solver (upd && cfg.lineSearch) = .ok t := by
    unfold searchIf
    split_ifs
    · exact searchMu_ok hv he hr hf hsol
    · exact ⟨0, rfl⟩
  obtain ⟨d, hd⟩ : ∃ d, divergenceIf v S p x.es f.r solver
      (upd && decide ((if cfg.lineSearch then (if t < 0 then k else t) else -1) < 0) && !quadratic) = .ok d := by
    unfold divergenceIf
    by_cases h : (upd && decide ((if cfg.lineSearch then (if t < 0 then k else t) else -1) < 0) && !quadratic) = true
    · rw [if_pos h]
      exact hd
    · rw [if_neg h]
      exact ⟨0, rfl⟩
  exact ⟨(t, d), by simp only [chosenMu, ht, hd, Outcome.bind_ok]⟩

/-- One pass. -/
theorem body_step {v : Env ℝ} (hv : ∀ x, 0 ≤ x → SolveLoop.Spec.SqrtAt v.sqrt x) (hexp : v.exp = Real.exp)
    {S : Search ℝ} {p : Iteration.Setup ℝ} {duals : List (List Nat)}
    {cfg : SolveLoop.Config ℝ} (hmode : cfg.mode = 0) (hresc : cfg.rescaling = false)
    (hkkt : 0 ≤ cfg.kktTol) (hmin : 0 < SolveLoop.kMin v.sqrt cfg)
    {quadratic : Bool} (hch : cfg.lineSearch = true ∨ quadratic = false) {I : List (Entry ℝ) → Prop}
    {A : Iteration.Step ℝ → Prop} (hI : Regime v S (scaled p 1 1) duals quadratic I A) {K : ℝ} {i : Nat} {q : State ℝ}
    (h : Base p duals cfg I K q) (hk : 0 ≤ q.s.k) (hi : (i : Int) < cfg.maxIter)
    (hno : ¬ (SolveLoop.finalCentering cfg i q.s = true ∧ cfg.finalSteps ≤ q.s.centering))
    (hA : ∀ t st x', (SolveLoop.updateMu cfg i q.s = true → ∃ f solver a, Iteration.factorize v (scaled p 1 1) q.x = .ok f ∧
        f.solver = some solver ∧ chosenMu v S (scaled p 1 1) cfg quadratic true q.s.k q.x.es f.r solver = .ok a ∧
        SolveLoop.candidate cfg quadratic (answers a) i q.s.k = some t) →
      Iteration.iterate v (scaled p 1 1) (nextK cfg v.sqrt K q.s.k t (SolveLoop.updateMu cfg i q.s)) q.x = .ok (some (st, x')) →
      A st ∨ nextK cfg v.sqrt K q.s.k t (SolveLoop.updateMu cfg i q.s) < K ∧ Ready (scaled p 1 1) duals x' ∧ I x'.es) :
    ∃ t st x' d q', bodySearch v S p cfg quadratic i q = .ok (d, q') ∧
      (SolveLoop.updateMu cfg i q.s = true → ∃ f solver a, Iteration.factorize v (scaled p 1 1) q.x = .ok f ∧
        f.solver = some solver ∧ chosenMu v S (scaled p 1 1) cfg quadratic true q.s.k q.x.es f.r solver = .ok a ∧
        SolveLoop.candidate cfg quadratic (answers a) i q.s.k = some t) ∧
      q'.s.k = nextK cfg v.sqrt K q.s.k t (SolveLoop.updateMu cfg i q.s) ∧
      Iteration.iterate v (scaled p 1 1) q'.s.k q.x = .ok (some (st, x')) ∧ q'.x = x' ∧ q'.last = some st ∧ (A st ∨ q'.s.k < K) ∧
      Base p duals cfg I K q' ∧ q'.s.stats.numIter = some (i + 1) ∧
      q'.s.centering = (if SolveLoop.updateMu cfg i q.s = false ∧ SolveLoop.initialCentering cfg i = false
        then q.s.centering + 1 else q.s.centering) ∧
      (if (SolveLoop.finalCentering cfg i q.s = true ∨ K ≤ q'.s.k) ∧ |st.norm| ≤ cfg.finalTol
        then d = .brk ∧ q'.s.maxReached = false else d = .next) := by
  have he : ∀ x, 0 < v.exp x := fun x => hexp ▸ Real.exp_pos x
  obtain ⟨st₁, x₁, h1, -⟩ := Iteration.iterate_total hv he h.ready 0
  obtain ⟨f, solver, hf, hsol, -⟩ := iterate_split h1
  set upd := SolveLoop.updateMu cfg i q.s with hupd
  obtain ⟨a, ha⟩ := chosen_ok (S := S) hv he h.ready hf hsol (hI.defined _ _ _ h.ready h.regime hf hsol) cfg quadratic upd q.s.k
  obtain ⟨t', hcand⟩ : ∃ t', SolveLoop.candidate cfg quadratic (answers a) i q.s.k = some t' := by
    unfold SolveLoop.candidate
    simp only
    rcases hch with hline | hq
    · simp only [hline, if_true]
      rw [if_neg]
      · exact ⟨_, rfl⟩
      · show ¬ (if a.1 < 0 then q.s.k else a.1) < 0
        split_ifs with h0
        · exact not_lt.2 hk
        · exact h0
    · simp only [hq, Bool.false_eq_true, if_false]
      split_ifs <;> exact ⟨_, rfl⟩
  set K' := nextK cfg v.sqrt K q.s.k t' upd with hK'
  set s₁ : SolveLoop.State ℝ := { q.s with aborted := false, trace := .factor i true :: q.s.trace } with hs₁
  obtain ⟨s₂, hs₂, hst₂, hkm₂, hkk₂, hce₂, hlim⟩ : ∃ s₂, SolveLoop.chooseMu cfg quadratic (answers a) i upd s₁ = some s₂ ∧
      s₂.stats = q.s.stats ∧ s₂.kMax = K ∧ s₂.kkt = q.s.kkt ∧
      s₂.centering = (if upd = false ∧ SolveLoop.initialCentering cfg i = false then q.s.centering + 1 else q.s.centering) ∧
      SolveLoop.applyLimits s₂.k (SolveLoop.kMin v.sqrt cfg) s₂.kMax = K' := by
    unfold SolveLoop.chooseMu
    by_cases hu : upd = true
    · have hcand' : SolveLoop.candidate cfg quadratic (answers a) i s₁.k = some t' := hcand
      rw [if_pos hu, hcand']
      simp only [Option.map_some]
      by_cases h0 : 0 < t'
      · rw [if_pos h0]
        refine ⟨_, rfl, rfl, h.kMax, rfl, ?_, ?_⟩
        · exact (if_neg (by rw [hu]; simp)).symm
        · rw [hK', nextK, if_pos hu, if_pos h0]
          show SolveLoop.applyLimits _ _ q.s.kMax = _
          rw [h.kMax]
      · rw [if_neg h0]
        refine ⟨_, rfl, rfl, h.kMax, rfl, ?_, ?_⟩
        · exact (if_neg (by rw [hu]; simp)).symm
        · rw [hK', nextK, if_pos hu, if_neg h0]
          show SolveLoop.applyLimits _ _ q.s.kMax = _
          rw [h.kMax]
    · have hu' : upd = false := by simpa using hu
      rw [if_neg hu]
      by_cases h0 : SolveLoop.initialCentering cfg i = false
      · rw [if_pos h0]
        refine ⟨_, rfl, rfl, h.kMax, rfl, ?_, ?_⟩
        · exact (if_pos ⟨hu', h0⟩).symm
        · rw [hK', nextK, if_neg hu]
          show SolveLoop.applyLimits _ _ q.s.kMax = _
          rw [h.kMax]
      · rw [if_neg h0]
        refine ⟨_, rfl, rfl, h.kMax, rfl, ?_, ?_⟩
        · exact (if_neg (by rintro ⟨-, h1⟩; exact h0 h1)).symm
        · rw [hK', nextK, if_neg hu]
          show SolveLoop.applyLimits _ _ q.s.kMax = _
          rw [h.kMax]
  obtain ⟨st, x', h2, -⟩ := Iteration.iterate_total hv he h.ready K'
  obtain ⟨f', solver', hf', hsol', hadv⟩ := iterate_split h2
  rw [hf, Outcome.ok.injEq] at hf'
  subst hf'
  rw [hsol, Option.some.injEq] at hsol'
  subst hsol'
  have hKpos : 0 < K' := hmin.trans_le (SolveLoop.applyLimits_ge _ _ _)
  obtain ⟨hAst, h5, h5'⟩ : (A st ∨ K' < K) ∧ Ready (scaled p 1 1) duals x' ∧ I x'.es := by
    rcases hA t' st x' (fun hu => ⟨f, solver, a, hf, hsol, by rw [hu] at ha; exact ha, hcand⟩) h2 with hA | ⟨hA, hA'⟩
    · exact ⟨Or.inl hA, hI.ready _ _ _ _ h.ready h.regime h2 hA, hI.next _ _ _ _ h.ready h.regime h2 hA⟩
    · exact ⟨Or.inr hA, hA'⟩
  have hb₂ : s₂.stats.bScale = some 1 := by rw [hst₂]; exact h.bScale
  have hc₂ : s₂.stats.cScale = some 1 := by rw [hst₂]; exact h.cScale
  have hcap₂ : s₂.stats.cap = cfg.maxIter := by rw [hst₂]; exact h.cap
  set o : SolveLoop.Oracle ℝ := { answers a with norm := fun _ => st.norm, cx := fun _ => st.cx, bY := fun _ => st.bY, kkt := fun _ => stepError v.sqrt cfg.kktTol K' 1 1 q.x.es st } with ho
  have herr : (if quadratic then s₂.kkt else o.kkt i) ≤ cfg.kktTol := by
    cases hq : quadratic
    · exact hI.error hq _ _ _ _ _ h.ready h.regime hKpos hkkt h2
    · show s₂.kkt ≤ _
      rw [hkk₂]
      exact h.kkt
  obtain ⟨d, s', hfin, hk', hnum, hstats, hcap, hkm', hkkt', hab', hce', hbrk⟩ : ∃ d s', SolveLoop.finish v.sqrt cfg quadratic o i
      (SolveLoop.finalCentering cfg i q.s) upd s₂ = .ok (d, s') ∧ s'.k = K' ∧ s'.stats.numIter = some (i + 1) ∧
      (s'.stats.bScale = some 1 ∧ s'.stats.cScale = some 1) ∧ s'.stats.cap = cfg.maxIter ∧ s'.kMax = K ∧
      s'.kkt ≤ cfg.kktTol ∧ s'.aborted = false ∧ s'.centering = s₂.centering ∧
      (if (SolveLoop.finalCentering cfg i q.s = true ∨ K ≤ K') ∧ |st.norm| ≤ cfg.finalTol
        then d = .brk ∧ s'.maxReached = false else d = .next) := by
    have hab : (decide (i = 0) && decide (cfg.mode = 1) && decide (cfg.warmAbort ≤ o.norm i)) = false := by
      rw [hmode]
      simp
    unfold SolveLoop.finish
    simp only [hb₂, hc₂, SolveLoop.readVar, Outcome.bind_ok]
    rw [if_neg (by rw [hcap₂]; omega), hlim, hkm₂]
    have hiff : ((SolveLoop.finalCentering cfg i q.s || decide (K ≤ K')) = true ∧ |o.norm i| ≤ cfg.finalTol) ↔
        ((SolveLoop.finalCentering cfg i q.s = true ∨ K ≤ K') ∧ |st.norm| ≤ cfg.finalTol) := by
      rw [Bool.or_eq_true, decide_eq_true_eq]
    by_cases hb : (SolveLoop.finalCentering cfg i q.s = true ∨ K ≤ K') ∧ |st.norm| ≤ cfg.finalTol
    · rw [if_pos (hiff.2 hb)]
      refine ⟨_, _, rfl, rfl, rfl, ⟨rfl, rfl⟩, hcap₂, rfl, herr, hab, rfl, ?_⟩
      rw [if_pos hb]
      exact ⟨rfl, rfl⟩
    · rw [if_neg fun h => hb (hiff.1 h)]
      refine ⟨_, _, rfl, rfl, rfl, ⟨rfl, rfl⟩, hcap₂, rfl, herr, hab, rfl, ?_⟩
      rw [if_neg hb]
  refine ⟨t', st, x', d, ⟨s', x', some st⟩, ?_, fun hu => ⟨f, solver, a, hf, hsol, ?_, hcand⟩, hk', ?_, rfl, rfl, by rw [hk']; exact hAst,
    ⟨h5, h5', hstats.1, hstats.2, hcap, hkm', hkkt', hab'⟩,
    hnum, hce'.trans hce₂, ?_⟩
  · unfold bodySearch
    simp only
    rw [if_neg hno]
    have hf₀ : Iteration.factorize v p q.x = .ok f := hf
    have hre : ∀ (o' : SolveLoop.Oracle ℝ) s, SolveLoop.rescale v.sqrt cfg o' i s = .ok s := by
      intro o' s
      unfold SolveLoop.rescale
      rw [if_neg (by rw [hresc]; simp)]
    have hb₁ : q.s.stats.bScale = some 1 := h.bScale
    have hc₁ : q.s.stats.cScale = some 1 := h.cScale
    have hadv' : advanceAt v { p with bs := 1, cs := 1 } cfg i K' q.x f.sys f.r solver = .ok (st, x') := by
      unfold advanceAt
      rw [if_neg (by rw [hmode]; rintro ⟨-, h⟩; cases h)]
      exact hadv
    have ha' : chosenMu v S { p with bs := 1, cs := 1 } cfg quadratic upd q.s.k q.x.es f.r solver = .ok a := ha
    simp only [hf₀, hre, hsol, hb₁, hc₁, SolveLoop.readVar, Outcome.bind_ok, ← hupd, ha']
    have hs₂' : SolveLoop.chooseMu cfg quadratic (answers a) i upd { q.s with aborted := false, trace := .factor i true :: q.s.trace } = some s₂ := hs₂
    simp only [hs₂', hlim, hadv', Outcome.bind_ok]
    rw [← ho, hfin]
    rfl
  · rw [hu] at ha
    exact ha
  · show Iteration.iterate v (scaled p 1 1) s'.k q.x = _
    rw [hk']
    exact h2
  · show if (_ ∨ K ≤ s'.k) ∧ _ then _ else _
    rw [hk']
    exact hbrk

end Verif.Whole
