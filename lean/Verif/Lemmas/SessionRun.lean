import Verif.Lemmas.WarmSolve
import Verif.Lemmas.WholeExit

/-!
# Lemmas for C87: a sequence of solves
-/

namespace Verif.Whole

open Finset Dual Iteration.Spec Spec

/-- A solve from any start. -/
theorem resume_ok {v : Env ℝ} (hv : ∀ x, 0 ≤ x → SolveLoop.Spec.SqrtAt v.sqrt x) (he : ∀ x, 0 < v.exp x)
    (hs : ∀ n, MatrixExp.Spec.Solves (v.solve n)) {l : Linear ℝ} (hl : Dense.Spec.LltContract l.llt)
    (hc : Dense.Spec.LltComplete l.llt) (hqr : l.useQr = false) {P : Program ℝ} (hP : VectorProgram P)
    {p : SolveLoop.Prog ℝ} (hp : Belongs P p) {cfg : SolveLoop.Config ℝ} (hcfg : Options P.quadratic cfg)
    {capacity : Int} (hmode : cfg.mode = 0 ∨ (Resumable P p capacity ∧ cfg.maxIter ≤ capacity))
    (c : SolveLoop.Oracle ℝ) :
    ∃ r es, solveAt v l P p cfg c = .ok r ∧ r.es = some es ∧ Answers P r ∧ Keeps P.es es ∧ Belongs P r.res.prog ∧
      (cfg.prepareDual = false →
        Resumable { P with es := es } r.res.prog (if cfg.mode = 0 then cfg.maxIter else capacity)) := by
  obtain ⟨kkt, q, j, bs, cs, res, es, h1, hN, h2, h3, h4, h5, h6, h7, h8, h9⟩ :=
    solveAt_ok hv he hs hl hc hqr hP hp hcfg hmode c
  obtain ⟨⟨jy, hy⟩, -, st, hlast, hhap⟩ := h1.last (by omega)
  refine ⟨_, es, h2, rfl, ⟨st, hlast, fun hret => ?_⟩, h3, h5, fun hd => ⟨h6, ?_, q.s.stats, bs, cs, h7, h1.bScale,
    h1.cScale, h1.bpos, h1.cpos, h1.same, h1.cap⟩⟩
  · obtain ⟨h10, h11⟩ := h9 hret
    have hk0 : 0 < q.s.k := by
      refine lt_of_le_of_ne h1.nonneg fun h => ?_
      simp [SolveLoop.overThreshold, ← h] at h10
    refine ⟨q.s.k, q.s.kMax, q.s.stats, bs, cs, fun u => st.y u / q.s.k / cs, h8, h7, h1.bScale, h1.cScale, hk0, h1.bpos,
      h1.cpos, by simp only [h11, hlast, array], fun hn => ?_⟩
    obtain ⟨g1, g2⟩ := happened_gap hv he hs (p := scaled _ bs cs) h1.bpos h1.cpos hk0 hhap hn
    have hr1 : cs / bs = 1 ∨ ∀ e ∈ P.es, ∀ n Q, e.item ≠ .cost n Q := by
      cases hq : P.quadratic with
      | false =>
        right
        intro e he n Q hx
        rw [hP.costs e he n Q hx] at hq
        cases hq
      | true =>
        left
        rw [h1.same hq, div_self h1.cpos.ne']
    have hzz : (fun u => st.y u / q.s.k / cs) = fun u => st.y u / (q.s.k * cs) := by
      funext u
      rw [div_div]
    have hobj : ∀ z, Gap.Spec.objective P.N P.b (cs / bs) P.es z = -value P z := by
      intro z
      rw [← objective_start hN hr1 z]
      exact ((keeps_self hP.data).identity.same.objective _ _ _ _).symm
    rw [hzz]
    refine ⟨g1, fun x hx => ?_⟩
    have := g2 x hx
    simp only [scaled] at this
    rw [hobj, hobj] at this
    linarith
  · rw [h4 hd]
    exact fun e he => hN ▸ h1.ready.good e he

/-- Several solves of one program, with changing linear costs. -/
theorem session_ok {v : Env ℝ} (hv : ∀ x, 0 ≤ x → SolveLoop.Spec.SqrtAt v.sqrt x) (he : ∀ x, 0 < v.exp x)
    (hs : ∀ n, MatrixExp.Spec.Solves (v.solve n)) {l : Linear ℝ} (hl : Dense.Spec.LltContract l.llt)
    (hc : Dense.Spec.LltComplete l.llt) (hqr : l.useQr = false) {P₀ : Program ℝ} (hP : VectorProgram P₀)
    (qs : List (Request ℝ)) :
    ∀ (es : List (Entry ℝ)) (p : SolveLoop.Prog ℝ) (capacity : Option Int), Keeps P₀.es es →
      Belongs P₀ p → (∀ n, capacity = some n → Resumable { P₀ with es := es } p n) → Follow P₀ capacity qs →
      ∃ rs, session v l { P₀ with es := es } p qs = .ok rs ∧
        List.Forall₂ (fun q r => Answers { P₀ with cost := q.cost } r) qs rs := by
  induction qs with
  | nil => exact fun es p c _ _ _ _ => ⟨[], rfl, List.Forall₂.nil⟩
  | cons q qs ih =>
    intro es p capacity hk hb hres hf
    obtain ⟨hcfg, hz, hmode, hf⟩ := hf
    have hlen : es.length = P₀.es.length := by simpa using congrArg List.length hk.vars
    have hP' := keeps_program hP hk hz q.cost
    have hb' : Belongs { P₀ with es := es, sys := q.sys, cost := q.cost } p := ⟨hb.1, hb.2.trans hlen.symm⟩
    obtain ⟨r, es', h1, h2, h3, h4, h5, h6⟩ := resume_ok hv he hs (l := { l with mat := q.mat }) hl hc hqr
      (P := { P₀ with es := es, sys := q.sys, cost := q.cost }) hP' hb' hcfg (capacity := capacity.getD 0) (by
        rcases hmode with h | ⟨n, rfl, h⟩
        · exact Or.inl h
        · have := hres n rfl
          exact Or.inr ⟨⟨this.initialized, this.interior, this.stats⟩, h⟩) q.oracle
    obtain ⟨rs, h7, h8⟩ := ih es' r.res.prog _ (hk.trans h4) ⟨h5.1, h5.2.trans hlen⟩ (fun n hn => by
      by_cases hd : q.cfg.prepareDual = true
      · rw [if_pos hd] at hn
        cases hn
      · rw [if_neg hd] at hn
        have := h6 (by simpa using hd)
        refine ⟨this.initialized, this.interior, ?_⟩
        by_cases h0 : q.cfg.mode = 0
        · rw [if_pos h0, Option.some.injEq] at hn
          have h9 := this.stats
          rw [if_pos h0, hn] at h9
          exact h9
        · rw [if_neg h0] at hn
          have h9 := this.stats
          rw [if_neg h0, hn] at h9
          exact h9) hf
    refine ⟨r :: rs, ?_, List.Forall₂.cons ?_ h8⟩
    · unfold session
      simp only
      rw [h1]
      simp only [Outcome.bind_ok, h2]
      rw [h7]
      rfl
    · obtain ⟨st, g1, g2⟩ := h3
      refine ⟨st, g1, fun hret => ?_⟩
      obtain ⟨k, kMax, stats, bs, cs, z, e1, e2, e3, e4, e5, e6, e7, e8, e9⟩ := g2 hret
      refine ⟨k, kMax, stats, bs, cs, z, e1, e2, e3, e4, e5, e6, e7, e8, fun hn => ?_⟩
      obtain ⟨f1, f2⟩ := e9 hn
      have hval : ∀ z, value { P₀ with es := es, sys := q.sys, cost := q.cost } z = value { P₀ with cost := q.cost } z := by
        intro z
        have := hk.same.objective 0 (fun _ => 0) (-1) z
        simp only [Gap.Spec.objective, range_zero, sum_empty, zero_sub, neg_mul, one_mul, neg_neg] at this
        simp only [value, this]
      have hrank := hk.same.rank
      refine ⟨(hk.same.feasible z).1 f1, fun x hx => ?_⟩
      have := f2 x ((hk.same.feasible x).2 hx)
      rw [hval, hval, hrank] at this
      exact this

/-- With these options a successful solve ends with a short direction. -/
theorem correct_of {v : Env ℝ} {l : Linear ℝ} {P P' : Program ℝ} {p : SolveLoop.Prog ℝ} {cfg : SolveLoop.Config ℝ}
    {c : SolveLoop.Oracle ℝ} {r : Result ℝ} (h : solveAt v l P' p cfg c = .ok r) (ha : Answers P r)
    (hs : 0 < cfg.finalSteps) (ht : cfg.finalTol ≤ 1) (hm : cfg.maxIter ≤ cfg.finalSteps + 2) : Correct P r := by
  obtain ⟨st, h2, h3⟩ := ha
  refine ⟨st, h2, fun hret => ?_⟩
  obtain ⟨k, kMax, stats, bs, cs, z, a1, a2, a3, a4, a5, a6, a7, a8, a9⟩ := h3 hret
  obtain ⟨st', h4, h5⟩ := short_direction h (by rw [a1]; simp) hret hs hm
  rw [h2, Option.some.injEq] at h4
  subst h4
  exact ⟨k, kMax, stats, bs, cs, z, a1, a2, a3, a4, a5, a6, a7, a8, a9 ((le_abs_self _).trans (h5.trans ht))⟩

/-- The results of a session are those of its solves. -/
theorem session_solves {v : Env ℝ} {l : Linear ℝ} (qs : List (Request ℝ)) {P : Program ℝ} {p : SolveLoop.Prog ℝ}
    {rs : List (Result ℝ)} (h : session v l P p qs = .ok rs) :
    List.Forall₂ (fun q r => ∃ l P p, solveAt v l P p q.cfg q.oracle = .ok r) qs rs := by
  induction qs generalizing P p rs with
  | nil =>
    simp only [session, Outcome.ok.injEq] at h
    subst h
    exact .nil
  | cons q qs ih =>
    unfold session at h
    simp only [SolveLoop.bind_eq_ok] at h
    obtain ⟨r, h1, h2⟩ := h
    cases hes : r.es with
    | none => rw [hes] at h2; cases h2
    | some es =>
      rw [hes] at h2
      simp only [SolveLoop.bind_eq_ok, Outcome.ok.injEq] at h2
      obtain ⟨rs', h3, rfl⟩ := h2
      exact .cons ⟨_, _, _, h1⟩ (ih h3)

theorem follow_steps {P : Program ℝ} (qs : List (Request ℝ)) {o : Option Int} (h : Follow P o qs) :
    ∀ q ∈ qs, 0 < q.cfg.finalSteps := by
  induction qs generalizing o with
  | nil => nofun
  | cons q qs ih =>
    obtain ⟨h1, -, -, h2⟩ := h
    intro q' hq'
    rcases List.mem_cons.1 hq' with rfl | hq'
    · exact h1.steps
    · exact ih h2 q' hq'

end Verif.Whole
