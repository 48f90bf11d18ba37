import Verif.Model.WholeSolve
import Verif.Lemmas.Solve

/-!
# The composed solve is a run of the control flow (C75)
-/

namespace Verif.Whole

open Dual Finset

variable {R : Type} [Field R] [LinearOrder R]

/-- The same answers from iteration `i` on. -/
structure Agree (o o' : SolveLoop.Oracle R) (i : Nat) : Prop where
  factorOk : ∀ j, i ≤ j → o'.factorOk j = o.factorOk j
  lineSearch : ∀ j, i ≤ j → o'.lineSearch j = o.lineSearch j
  divergence : ∀ j, i ≤ j → o'.divergence j = o.divergence j
  norm : ∀ j, i ≤ j → o'.norm j = o.norm j
  cx : ∀ j, i ≤ j → o'.cx j = o.cx j
  bY : ∀ j, i ≤ j → o'.bY j = o.bY j
  kkt : ∀ j, i ≤ j → o'.kkt j = o.kkt j
  norms : i = 0 → o'.bNorm = o.bNorm ∧ o'.aqcNorm = o.aqcNorm

theorem rescale_congr {sqrt : R → R} {cfg : SolveLoop.Config R} {o o' : SolveLoop.Oracle R} {i : Nat}
    (h : i = 0 → o'.bNorm = o.bNorm ∧ o'.aqcNorm = o.aqcNorm) (s : SolveLoop.State R) :
    SolveLoop.rescale sqrt cfg o' i s = SolveLoop.rescale sqrt cfg o i s := by
  unfold SolveLoop.rescale
  by_cases hi : i < 1 ∧ cfg.rescaling = true
  · rw [if_pos hi, if_pos hi, (h (by omega)).1, (h (by omega)).2]
  · rw [if_neg hi, if_neg hi]

theorem chooseMu_congr {cfg : SolveLoop.Config R} {quadratic : Bool} {o o' : SolveLoop.Oracle R} {i : Nat}
    (h1 : o'.lineSearch i = o.lineSearch i) (h2 : o'.divergence i = o.divergence i) (upd : Bool)
    (s : SolveLoop.State R) :
    SolveLoop.chooseMu cfg quadratic o' i upd s = SolveLoop.chooseMu cfg quadratic o i upd s := by
  unfold SolveLoop.chooseMu SolveLoop.candidate
  rw [h1, h2]

theorem finish_congr {sqrt : R → R} {cfg : SolveLoop.Config R} {quadratic : Bool} {o o' : SolveLoop.Oracle R} {i : Nat}
    (h1 : o'.norm i = o.norm i) (h2 : o'.cx i = o.cx i) (h3 : o'.bY i = o.bY i) (h4 : o'.kkt i = o.kkt i)
    (fc upd : Bool) (s : SolveLoop.State R) :
    SolveLoop.finish sqrt cfg quadratic o' i fc upd s = SolveLoop.finish sqrt cfg quadratic o i fc upd s := by
  unfold SolveLoop.finish
  rw [h1, h2, h3, h4]

/-- One pass. -/
theorem body_refines {v : Env R} {p : Iteration.Setup R} {cfg : SolveLoop.Config R}
    {quadratic : Bool} {c : SolveLoop.Oracle R} {i : Nat} {q : State R} {r : SolveLoop.Ctl × State R}
    (h : body v p cfg quadratic c i q = .ok r) :
    ∃ (f : Bool) (n cx bY bN aN : R), ∀ o : SolveLoop.Oracle R, o.factorOk i = f → o.norm i = n → o.cx i = cx →
      o.bY i = bY → (i = 0 → o.bNorm = bN ∧ o.aqcNorm = aN) → o.lineSearch i = c.lineSearch i →
      o.divergence i = c.divergence i → o.kkt i = c.kkt i →
      SolveLoop.body v.sqrt cfg quadratic o i q.s = .ok (r.1, r.2.s) := by
  unfold body at h
  simp only at h
  by_cases hex : SolveLoop.finalCentering cfg i q.s = true ∧ cfg.finalSteps ≤ q.s.centering
  · rw [if_pos hex, Outcome.ok.injEq] at h
    subst h
    refine ⟨true, 0, 0, 0, 0, 0, fun o _ _ _ _ _ _ _ _ => ?_⟩
    unfold SolveLoop.body
    simp only [if_pos hex]
  · rw [if_neg hex] at h
    simp only [SolveLoop.bind_eq_ok] at h
    obtain ⟨f, -, s₁, h2, h3⟩ := h
    cases hs : f.solver with
    | none =>
      rw [hs] at h3
      simp only at h3
      refine ⟨false, 0, 0, 0, norm v.sqrt p.N p.b, norm v.sqrt p.N f.r.AQc, fun o hf _ _ _ hn _ _ _ => ?_⟩
      unfold SolveLoop.body SolveLoop.bodyMain
      simp only [if_neg hex]
      rw [rescale_congr (o := { c with bNorm := norm v.sqrt p.N p.b, aqcNorm := norm v.sqrt p.N f.r.AQc }) hn, h2]
      by_cases hw : i = 0 ∧ cfg.mode = 1
      · rw [if_pos hw, Outcome.ok.injEq] at h3
        subst h3
        simp only [hf, Outcome.bind_ok, if_true, if_pos hw]
        rfl
      · rw [if_neg hw, Outcome.ok.injEq] at h3
        subst h3
        simp only [hf, Outcome.bind_ok, if_true, if_neg hw]
        rfl
    | some solver =>
      rw [hs] at h3
      simp only at h3
      cases hm : SolveLoop.chooseMu cfg quadratic c i (SolveLoop.updateMu cfg i q.s)
          { s₁ with trace := .factor i true :: s₁.trace } with
      | none =>
        rw [hm, Outcome.ok.injEq] at h3
        subst h3
        refine ⟨true, 0, 0, 0, norm v.sqrt p.N p.b, norm v.sqrt p.N f.r.AQc, fun o hf _ _ _ hn hl hd _ => ?_⟩
        unfold SolveLoop.body SolveLoop.bodyMain
        simp only [if_neg hex]
        rw [rescale_congr (o := { c with bNorm := norm v.sqrt p.N p.b, aqcNorm := norm v.sqrt p.N f.r.AQc }) hn, h2]
        simp [hf, Outcome.bind_ok, chooseMu_congr hl hd, hm]
      | some s₂ =>
        rw [hm] at h3
        simp only [SolveLoop.bind_eq_ok] at h3
        obtain ⟨bs, -, cs, -, a, -, w, h4, h5⟩ := h3
        rw [Outcome.ok.injEq] at h5
        subst h5
        refine ⟨true, a.1.norm, a.1.cx, a.1.bY, norm v.sqrt p.N p.b, norm v.sqrt p.N f.r.AQc, fun o hf hno hcx hby hn hl hd hk => ?_⟩
        unfold SolveLoop.body SolveLoop.bodyMain
        simp only [if_neg hex]
        rw [rescale_congr (o := { c with bNorm := norm v.sqrt p.N p.b, aqcNorm := norm v.sqrt p.N f.r.AQc }) hn, h2]
        simp only [hf, Outcome.bind_ok, chooseMu_congr hl hd, hm, Bool.true_eq_false, if_false]
        rw [finish_congr (o := { c with norm := fun _ => a.1.norm, cx := fun _ => a.1.cx, bY := fun _ => a.1.bY })
          hno hcx hby hk, h4]

/-- The loop. -/
theorem loop_refines {v : Env R} {p : Iteration.Setup R} {cfg : SolveLoop.Config R}
    {quadratic : Bool} {c : SolveLoop.Oracle R} : ∀ (n i : Nat) (q : State R) (r : SolveLoop.Ctl × State R),
    loop v p cfg quadratic c n i q = .ok r →
    ∃ o : SolveLoop.Oracle R, o.lineSearch = c.lineSearch ∧ o.divergence = c.divergence ∧ o.kkt = c.kkt ∧
      ∀ o', Agree o o' i → SolveLoop.loop v.sqrt cfg quadratic o' n i q.s = .ok (r.1, r.2.s) := by
  intro n
  induction n with
  | zero =>
    intro i q r h
    simp only [loop, Outcome.ok.injEq] at h
    subst h
    exact ⟨c, rfl, rfl, rfl, fun o' _ => rfl⟩
  | succ n ih =>
    intro i q r h
    simp only [loop, SolveLoop.bind_eq_ok] at h
    obtain ⟨⟨d, q'⟩, h1, h2⟩ := h
    obtain ⟨f, no, cx, bY, bN, aN, h3⟩ := body_refines h1
    have key : ∀ o₁ : SolveLoop.Oracle R, o₁.lineSearch = c.lineSearch → o₁.divergence = c.divergence →
        o₁.kkt = c.kkt → ∃ o : SolveLoop.Oracle R, o.lineSearch = c.lineSearch ∧ o.divergence = c.divergence ∧
          o.kkt = c.kkt ∧ ∀ o', Agree o o' i → Agree o₁ o' (i + 1) ∧
            SolveLoop.body v.sqrt cfg quadratic o' i q.s = .ok (d, q'.s) := by
      intro o₁ e1 e2 e3
      refine ⟨⟨Function.update o₁.factorOk i f, c.lineSearch, c.divergence, Function.update o₁.norm i no,
        Function.update o₁.cx i cx, Function.update o₁.bY i bY, c.kkt, bN, aN⟩, rfl, rfl, rfl, fun o' ha => ⟨?_, ?_⟩⟩
      · refine ⟨fun j hj => ?_, fun j hj => ?_, fun j hj => ?_, fun j hj => ?_, fun j hj => ?_, fun j hj => ?_,
          fun j hj => ?_, fun h => absurd h (by omega)⟩
        · exact (ha.factorOk j (by omega)).trans (Function.update_of_ne (by omega) _ _)
        · rw [ha.lineSearch j (by omega), e1]
        · rw [ha.divergence j (by omega), e2]
        · exact (ha.norm j (by omega)).trans (Function.update_of_ne (by omega) _ _)
        · exact (ha.cx j (by omega)).trans (Function.update_of_ne (by omega) _ _)
        · exact (ha.bY j (by omega)).trans (Function.update_of_ne (by omega) _ _)
        · rw [ha.kkt j (by omega), e3]
      · refine h3 o' ?_ ?_ ?_ ?_ ha.norms (ha.lineSearch i le_rfl) (ha.divergence i le_rfl) (ha.kkt i le_rfl)
        · exact (ha.factorOk i le_rfl).trans (Function.update_self _ _ _)
        · exact (ha.norm i le_rfl).trans (Function.update_self _ _ _)
        · exact (ha.cx i le_rfl).trans (Function.update_self _ _ _)
        · exact (ha.bY i le_rfl).trans (Function.update_self _ _ _)
    by_cases hd : d = .next
    · subst hd
      obtain ⟨o₁, e1, e2, e3, h4⟩ := ih (i + 1) q' r h2
      obtain ⟨o, g1, g2, g3, h5⟩ := key o₁ e1 e2 e3
      refine ⟨o, g1, g2, g3, fun o' ha => ?_⟩
      obtain ⟨h6, h7⟩ := h5 o' ha
      simp only [SolveLoop.loop, h7, Outcome.bind_ok]
      exact h4 o' h6
    · obtain ⟨o, g1, g2, g3, h5⟩ := key c rfl rfl rfl
      refine ⟨o, g1, g2, g3, fun o' ha => ?_⟩
      have hr : r = (d, q') := by
        cases d <;> first | exact absurd rfl hd | (simp only [Outcome.ok.injEq] at h2; exact h2.symm)
      subst hr
      simp only [SolveLoop.loop, (h5 o' ha).2, Outcome.bind_ok]
      cases d <;> first | exact absurd rfl hd | rfl

end Verif.Whole
