import Verif.Lemmas.WholeRefines
import Verif.Model.WholeSearch

/-!
# The solve with computed barrier parameters is a solve with suitable answers (C90)
-/

namespace Verif.Whole

open Dual Finset LineSearch

variable {R : Type} [Field R] [LinearOrder R]

/-- One pass. -/
theorem bodySearch_refines {v : Env R} {S : Search R} {p : Iteration.Setup R} {cfg : SolveLoop.Config R}
    {quadratic : Bool} {i : Nat} {q : State R} {r : SolveLoop.Ctl × State R}
    (h : bodySearch v S p cfg quadratic i q = .ok r) :
    ∃ t d e : R, ∀ c : SolveLoop.Oracle R, c.lineSearch i = t → c.divergence i = d → c.kkt i = e →
      body v p cfg quadratic c i q = .ok r := by
  unfold bodySearch at h
  simp only at h
  by_cases hex : SolveLoop.finalCentering cfg i q.s = true ∧ cfg.finalSteps ≤ q.s.centering
  · rw [if_pos hex] at h
    refine ⟨0, 0, 0, fun c _ _ _ => ?_⟩
    unfold body
    simp only [if_pos hex, h]
  · rw [if_neg hex] at h
    simp only [SolveLoop.bind_eq_ok] at h
    obtain ⟨f, h1, s₁, h2, h3⟩ := h
    have hres : ∀ c : SolveLoop.Oracle R, SolveLoop.rescale v.sqrt cfg
        { c with bNorm := norm v.sqrt p.N p.b, aqcNorm := norm v.sqrt p.N f.r.AQc } i { q.s with aborted := false } =
          .ok s₁ := fun c => (rescale_congr (fun _ => ⟨rfl, rfl⟩) _).trans h2
    cases hs : f.solver with
    | none =>
      rw [hs] at h3
      refine ⟨0, 0, 0, fun c _ _ _ => ?_⟩
      unfold body
      simp only [if_neg hex, h1, hres, Outcome.bind_ok, hs]
      exact h3
    | some solver =>
      rw [hs] at h3
      simp only [SolveLoop.bind_eq_ok] at h3
      obtain ⟨bs, h4, cs, h5, t, -, h6⟩ := h3
      cases hm : SolveLoop.chooseMu cfg quadratic (answers t) i (SolveLoop.updateMu cfg i q.s)
          { s₁ with trace := .factor i true :: s₁.trace } with
      | none =>
        rw [hm] at h6
        refine ⟨t.1, t.2, 0, fun c hl hd _ => ?_⟩
        unfold body
        simp only [if_neg hex, h1, hres, Outcome.bind_ok, hs, chooseMu_congr (o := answers t) hl hd, hm]
        exact h6
      | some s₂ =>
        rw [hm] at h6
        simp only [SolveLoop.bind_eq_ok] at h6
        obtain ⟨a, h7, w, h8, h9⟩ := h6
        have hst : s₂.stats = s₁.stats := by
          unfold SolveLoop.chooseMu at hm
          split_ifs at hm
          · rw [Option.map_eq_some_iff] at hm
            obtain ⟨temp, -, hm⟩ := hm
            split_ifs at hm <;> exact hm ▸ rfl
          · rw [Option.some.injEq] at hm
            exact hm ▸ rfl
          · rw [Option.some.injEq] at hm
            exact hm ▸ rfl
        generalize stepError v.sqrt cfg.kktTol (SolveLoop.applyLimits s₂.k (SolveLoop.kMin v.sqrt cfg) s₂.kMax) bs cs
          q.x.es a.1 = e at h8
        refine ⟨t.1, t.2, e, fun c hl hd hk => ?_⟩
        unfold body
        simp only [if_neg hex, h1, hres, Outcome.bind_ok, hs, chooseMu_congr (o := answers t) hl hd, hm, hst, h4, h5,
          h7]
        have h10 := (finish_congr (sqrt := v.sqrt) (cfg := cfg) (quadratic := quadratic) (i := i)
          (o' := { c with norm := fun _ => a.1.norm, cx := fun _ => a.1.cx, bY := fun _ => a.1.bY })
          (o := { answers t with norm := fun _ => a.1.norm, cx := fun _ => a.1.cx, bY := fun _ => a.1.bY, kkt := fun _ => e })
          rfl rfl rfl hk (SolveLoop.finalCentering cfg i q.s) (SolveLoop.updateMu cfg i q.s) s₂).trans h8
        simp only [h10, Outcome.bind_ok]
        exact h9

/-- The loop. -/
theorem loopSearch_refines {v : Env R} {S : Search R} {p : Iteration.Setup R} {cfg : SolveLoop.Config R}
    {quadratic : Bool} : ∀ (n i : Nat) (q : State R) (r : SolveLoop.Ctl × State R),
    loopSearch v S p cfg quadratic n i q = .ok r →
    ∃ f g e : Nat → R, ∀ c : SolveLoop.Oracle R, (∀ j, i ≤ j → c.lineSearch j = f j) →
      (∀ j, i ≤ j → c.divergence j = g j) →
      (∀ j, i ≤ j → c.kkt j = e j) → loop v p cfg quadratic c n i q = .ok r := by
  intro n
  induction n with
  | zero => exact fun i q r h => ⟨fun _ => 0, fun _ => 0, fun _ => 0, fun c _ _ _ => h⟩
  | succ n ih =>
    intro i q r h
    simp only [loopSearch, SolveLoop.bind_eq_ok] at h
    obtain ⟨⟨d, q'⟩, h1, h2⟩ := h
    obtain ⟨t, b, e, h3⟩ := bodySearch_refines h1
    by_cases hd : d = .next
    · subst hd
      obtain ⟨f, g, e', h4⟩ := ih _ _ _ h2
      refine ⟨Function.update f i t, Function.update g i b, Function.update e' i e, fun c hl hdiv hk => ?_⟩
      have h5 := h3 c (by rw [hl i le_rfl, Function.update_self]) (by rw [hdiv i le_rfl, Function.update_self])
        (by rw [hk i le_rfl, Function.update_self])
      simp only [loop, h5, Outcome.bind_ok]
      exact h4 c (fun j hj => by rw [hl j (by omega), Function.update_of_ne (by omega)])
        (fun j hj => by rw [hdiv j (by omega), Function.update_of_ne (by omega)])
        fun j hj => by rw [hk j (by omega), Function.update_of_ne (by omega)]
    · refine ⟨fun _ => t, fun _ => b, fun _ => e, fun c hl hdiv hk => ?_⟩
      have h5 := h3 c (hl i le_rfl) (hdiv i le_rfl) (hk i le_rfl)
      simp only [loop, h5, Outcome.bind_ok]
      cases d <;> first | exact absurd rfl hd | exact h2

/-- The whole solve. -/
theorem solveSearch_refines {v : Env R} {l : Linear R} {S : Search R} {P : Program R} {p : SolveLoop.Prog R}
    {cfg : SolveLoop.Config R} {r : Result R} (h : solveSearchAt v l S P p cfg = .ok r) :
    ∃ c : SolveLoop.Oracle R, solveAt v l P p cfg c = .ok r := by
  unfold solveSearchAt at h
  unfold solveAt
  simp only at h ⊢
  by_cases h1 : ¬ (P.quadratic = false ∨ (cfg.lineSearch = true ∧ cfg.rescaling = false))
  · rw [if_pos h1] at h
    exact ⟨answers (0, 0), by rw [if_pos h1, h]⟩
  rw [if_neg h1] at h
  simp only [if_neg h1]
  by_cases h2 : P.es.length = 0
  · rw [if_pos h2] at h
    exact ⟨answers (0, 0), by rw [if_pos h2, h]⟩
  rw [if_neg h2] at h
  simp only [if_neg h2]
  by_cases h3 : (SolveLoop.clearStatus p).initialized = false ∧ cfg.mode ≠ 0
  · rw [if_pos h3] at h
    cases h
  rw [if_neg h3] at h
  simp only [if_neg h3]
  simp only [SolveLoop.bind_eq_ok] at h
  obtain ⟨kkt, h4, h5⟩ := h
  simp only [h4, Outcome.bind_ok]
  cases hst : (SolveLoop.initProgram (SolveLoop.clearStatus p) cfg).stats with
  | none =>
    rw [hst] at h5
    cases h5
  | some stats =>
    rw [hst] at h5
    simp only [SolveLoop.bind_eq_ok] at h5
    obtain ⟨w, h6, h7⟩ := h5
    obtain ⟨f, g, e, h8⟩ := loopSearch_refines _ _ _ _ h6
    refine ⟨{ answers (0, 0) with lineSearch := f, divergence := g, kkt := e }, ?_⟩
    simp only [h8 { answers (0, 0) with lineSearch := f, divergence := g, kkt := e } (fun _ _ => rfl) (fun _ _ => rfl) (fun _ _ => rfl),
      Outcome.bind_ok]
    obtain ⟨d, q⟩ := w
    cases d <;> exact h7

end Verif.Whole
