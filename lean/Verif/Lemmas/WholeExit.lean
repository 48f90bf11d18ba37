import Verif.Lemmas.Solve
import Verif.Model.WholeSolve

/-!
# Lemmas for C75 and C87: how a successful solve was left
-/

namespace Verif.Whole

open Dual

variable {R : Type} [Field R] [LinearOrder R] [IsStrictOrderedRing R]

/-- Before iteration `i`. -/
def Before (i : Nat) (q : State R) : Prop :=
  q.s.maxReached = true ∧ q.s.centering ≤ (i : Int) - 1 + (if i = 0 then 1 else 0)

/-- After the loop. -/
def Left (cfg : SolveLoop.Config R) (q : State R) : Prop :=
  q.s.maxReached = false → (∃ st, q.last = some st ∧ |st.norm| ≤ cfg.finalTol) ∨ cfg.finalSteps ≤ 0 ∨
    cfg.finalSteps + 2 < cfg.maxIter

theorem body_left {v : Env R} {p : Iteration.Setup R} {cfg : SolveLoop.Config R} {quadratic : Bool}
    {c : SolveLoop.Oracle R} {i : Nat} {q q' : State R} {d : SolveLoop.Ctl} (hb : Before i q)
    (h : body v p cfg quadratic c i q = .ok (d, q')) :
    (d = .next → Before (i + 1) q') ∧ (d = .brk → Left cfg q') := by
  obtain ⟨hm, hcen⟩ := hb
  unfold body at h
  simp only at h
  by_cases h1 : SolveLoop.finalCentering cfg i q.s = true ∧ cfg.finalSteps ≤ q.s.centering
  · rw [if_pos h1] at h
    simp only [Outcome.ok.injEq, Prod.mk.injEq] at h
    obtain ⟨rfl, rfl⟩ := h
    refine ⟨nofun, fun _ hmax => ?_⟩
    simp only [decide_eq_false_iff_not, not_le] at hmax
    by_cases h0 : cfg.finalSteps ≤ 0
    · exact Or.inr (Or.inl h0)
    · right; right
      have h2 := h1.2
      by_cases hi : i = 0
      · rw [if_pos hi] at hcen
        omega
      · rw [if_neg hi] at hcen
        omega
  · rw [if_neg h1] at h
    simp only [SolveLoop.bind_eq_ok] at h
    obtain ⟨f, hf, s₁, hs₁, h⟩ := h
    have hr : s₁.centering = q.s.centering ∧ s₁.maxReached = true := by
      unfold SolveLoop.rescale at hs₁
      split at hs₁
      · simp only [SolveLoop.bind_eq_ok] at hs₁
        obtain ⟨b, -, b', -, hs₁⟩ := hs₁
        have hs₁ : Outcome.ok _ = Outcome.ok s₁ := hs₁
        rw [Outcome.ok.injEq] at hs₁
        subst hs₁
        exact ⟨rfl, hm⟩
      · rw [Outcome.ok.injEq] at hs₁
        subst hs₁
        exact ⟨rfl, hm⟩
    cases hsol : f.solver with
    | none =>
      rw [hsol] at h
      simp only at h
      split at h
      · simp only [Outcome.ok.injEq, Prod.mk.injEq] at h
        obtain ⟨rfl, rfl⟩ := h
        rename_i h2
        refine ⟨fun _ => ⟨hr.2, ?_⟩, nofun⟩
        rw [if_pos h2.1] at hcen
        rw [if_neg (by omega)]
        show s₁.centering ≤ _
        rw [hr.1]
        push_cast
        omega
      · simp only [Outcome.ok.injEq, Prod.mk.injEq] at h
        obtain ⟨rfl, rfl⟩ := h
        exact ⟨nofun, nofun⟩
    | some solver =>
      rw [hsol] at h
      simp only at h
      cases hmu : SolveLoop.chooseMu cfg quadratic c i (SolveLoop.updateMu cfg i q.s)
          { s₁ with trace := .factor i true :: s₁.trace } with
      | none =>
        rw [hmu] at h
        simp only [Outcome.ok.injEq, Prod.mk.injEq] at h
        obtain ⟨rfl, rfl⟩ := h
        exact ⟨nofun, nofun⟩
      | some s₂ =>
        rw [hmu] at h
        simp only [SolveLoop.bind_eq_ok] at h
        obtain ⟨bs, -, cs, -, a, -, ⟨d', s₃⟩, hfin, h⟩ := h
        simp only [Outcome.ok.injEq, Prod.mk.injEq] at h
        obtain ⟨rfl, rfl⟩ := h
        -- the counter
        have h2 : s₂.maxReached = true ∧ s₂.centering ≤ (i : Int) := by
          unfold SolveLoop.chooseMu at hmu
          by_cases hu : SolveLoop.updateMu cfg i q.s = true
          · rw [if_pos hu] at hmu
            simp only [Option.map_eq_some_iff] at hmu
            obtain ⟨t, -, hmu⟩ := hmu
            have : s₂.maxReached = s₁.maxReached ∧ s₂.centering = s₁.centering := by
              split at hmu <;> subst hmu <;> exact ⟨rfl, rfl⟩
            rw [this.1, this.2, hr.1]
            refine ⟨hr.2, ?_⟩
            by_cases hi : i = 0
            · rw [if_pos hi] at hcen; omega
            · rw [if_neg hi] at hcen; omega
          · rw [if_neg hu] at hmu
            have hi : i ≠ 0 := by
              rintro rfl
              simp [SolveLoop.updateMu] at hu
            rw [if_neg hi] at hcen
            split at hmu
            · rw [Option.some.injEq] at hmu
              subst hmu
              refine ⟨hr.2, ?_⟩
              show s₁.centering + 1 ≤ _
              rw [hr.1]
              omega
            · rw [Option.some.injEq] at hmu
              subst hmu
              refine ⟨hr.2, ?_⟩
              show s₁.centering ≤ _
              rw [hr.1]
              omega
        unfold SolveLoop.finish at hfin
        simp only [SolveLoop.bind_eq_ok] at hfin
        obtain ⟨_, -, _, -, hfin⟩ := hfin
        split at hfin
        · cases hfin
        · split at hfin
          · rename_i h3
            simp only [Outcome.ok.injEq, Prod.mk.injEq] at hfin
            obtain ⟨rfl, rfl⟩ := hfin
            exact ⟨nofun, fun _ _ => Or.inl ⟨a.1, rfl, h3.2⟩⟩
          · simp only [Outcome.ok.injEq, Prod.mk.injEq] at hfin
            obtain ⟨rfl, rfl⟩ := hfin
            refine ⟨fun _ => ⟨h2.1, ?_⟩, nofun⟩
            show s₂.centering ≤ _
            rw [if_neg (Nat.succ_ne_zero i)]
            have := h2.2
            push_cast
            omega

theorem loop_left {v : Env R} {p : Iteration.Setup R} {cfg : SolveLoop.Config R} {quadratic : Bool}
    {c : SolveLoop.Oracle R} (n : Nat) : ∀ {i : Nat} {q q' : State R} {d : SolveLoop.Ctl}, Before i q →
      loop v p cfg quadratic c n i q = .ok (d, q') → d = .brk → Left cfg q' := by
  induction n with
  | zero =>
    intro i q q' d hb h hd
    simp only [loop, Outcome.ok.injEq, Prod.mk.injEq] at h
    obtain ⟨rfl, rfl⟩ := h
    intro hm
    rw [hb.1] at hm
    cases hm
  | succ n ih =>
    intro i q q' d hb h hd
    unfold loop at h
    simp only [SolveLoop.bind_eq_ok] at h
    obtain ⟨⟨d₁, q₁⟩, h1, h2⟩ := h
    obtain ⟨h3, h4⟩ := body_left hb h1
    cases d₁ with
    | next => exact ih (h3 rfl) h2 hd
    | brk =>
      simp only [Outcome.ok.injEq, Prod.mk.injEq] at h2
      obtain ⟨rfl, rfl⟩ := h2
      exact h4 rfl
    | fail =>
      simp only [Outcome.ok.injEq, Prod.mk.injEq] at h2
      obtain ⟨rfl, rfl⟩ := h2
      cases hd
    | demand =>
      simp only [Outcome.ok.injEq, Prod.mk.injEq] at h2
      obtain ⟨rfl, rfl⟩ := h2
      cases hd

/-- A successful solve was left because the last direction was short, if the number of final centering steps is close
to the number of iterations. -/
theorem short_direction {v : Env R} {l : Linear R} {P : Program R} {p : SolveLoop.Prog R} {cfg : SolveLoop.Config R}
    {c : SolveLoop.Oracle R} {r : Result R} (h : solveAt v l P p cfg c = .ok r) (hf : r.res.final ≠ none)
    (hret : r.res.ret = true) (hs : 0 < cfg.finalSteps) (hm : cfg.maxIter ≤ cfg.finalSteps + 2) :
    ∃ st, r.last = some st ∧ |st.norm| ≤ cfg.finalTol := by
  unfold solveAt at h
  split at h
  · rw [Outcome.ok.injEq] at h
    subst h
    exact absurd rfl hf
  simp only at h
  split at h
  · rw [Outcome.ok.injEq] at h
    subst h
    exact absurd rfl hf
  split at h
  · cases h
  simp only [SolveLoop.bind_eq_ok] at h
  obtain ⟨kkt, -, h⟩ := h
  split at h
  · cases h
  simp only [SolveLoop.bind_eq_ok] at h
  obtain ⟨⟨d, q⟩, hl, h⟩ := h
  have key := loop_left _ (by exact ⟨rfl, by simp [SolveLoop.start]⟩) hl
  have hpost : ∀ {p' : SolveLoop.Prog R} {res : SolveLoop.Result R}, SolveLoop.post cfg p' q.s = .ok res →
      res.ret = true → q.s.maxReached = false := by
    intro p' res h1 h2
    unfold SolveLoop.post at h1
    simp only [SolveLoop.bind_eq_ok] at h1
    obtain ⟨_, -, _, -, h1⟩ := h1
    have h1 : Outcome.ok _ = Outcome.ok res := h1
    rw [Outcome.ok.injEq] at h1
    subst h1
    simp only [Bool.and_eq_true, Bool.not_eq_true'] at h2
    exact h2.2
  have hnot : d ≠ .next := by
    have : ∀ (n i : Nat) (q q' : State R) (d : SolveLoop.Ctl) (p : Iteration.Setup R),
        loop v p cfg P.quadratic c n i q = .ok (d, q') → d ≠ .next := by
      intro n
      induction n with
      | zero =>
        intro i q q' d p h
        simp only [loop, Outcome.ok.injEq, Prod.mk.injEq] at h
        rw [← h.1]
        nofun
      | succ n ih =>
        intro i q q' d p h
        unfold loop at h
        simp only [SolveLoop.bind_eq_ok] at h
        obtain ⟨⟨d₁, q₁⟩, h1, h2⟩ := h
        cases d₁ with
        | next => exact ih _ _ _ _ _ h2
        | brk | fail | demand =>
          simp only [Outcome.ok.injEq, Prod.mk.injEq] at h2
          rw [← h2.1]
          nofun
    exact this _ _ _ _ _ _ hl
  cases d with
  | next => exact absurd rfl hnot
  | fail | demand =>
    simp only [Outcome.ok.injEq] at h
    subst h
    exact absurd rfl hf
  | brk =>
    simp only [SolveLoop.bind_eq_ok] at h
    obtain ⟨res, h1, es, -, h2⟩ := h
    rw [Outcome.ok.injEq] at h2
    subst h2
    rcases key rfl (hpost h1 hret) with h3 | h3 | h3
    · exact h3
    · omega
    · omega

end Verif.Whole
