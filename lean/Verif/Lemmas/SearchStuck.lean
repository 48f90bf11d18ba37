import Verif.Lemmas.WholeSearch

/-!
# A constraint without a line search keeps the barrier parameter at its lower limit (C90)
-/

namespace Verif.Whole

open Dual Finset LineSearch

variable {R : Type} [Field R] [LinearOrder R]

/-- Constraints that use the template of `PerformLineSearch`. -/
def Unsearched : Item R → Prop
  | .linear _ _ => False
  | .equality _ => False
  | .cost _ _ => False
  | _ => True

theorem unsearched_identity (x : Item R) (h : Unsearched x) : Unsearched (setIdentity x) := by
  cases x <;> first | exact h | trivial

theorem unsearched_prepare {v : Env R} {c β : R} {len : Nat} {y : Nat → R} {x x' : Item R} {n : Option R}
    (hp : x.prepareStep v c len y = .ok (x', n, β)) (h : Unsearched x) : Unsearched x' := by
  cases x with
  | linear o w => exact h.elim
  | cost m Q => exact h.elim
  | equality o => exact h.elim
  | _ =>
    simp only [Item.prepareStep, SolveLoop.bind_eq_ok, Outcome.ok.injEq, Prod.mk.injEq] at hp
    obtain ⟨q, -, rfl, -⟩ := hp
    trivial

theorem unsearched_take {v : Env R} {size : R} {x x' : Item R} (ht : x.takeStep v size = .ok x') (h : Unsearched x) :
    Unsearched x' := by
  cases x with
  | linear o w => exact h.elim
  | cost m Q => exact h.elim
  | equality o => exact h.elim
  | soc o w =>
    simp only [Item.takeStep, SolveLoop.bind_eq_ok, Outcome.ok.injEq] at ht
    obtain ⟨w', -, rfl⟩ := ht
    trivial
  | _ =>
    simp only [Item.takeStep, Outcome.ok.injEq] at ht
    subst ht
    trivial

/-- One of the constraints has no line search. -/
def Blocked (es : List (Entry R)) : Prop := ∃ e ∈ es, Unsearched e.item

theorem blocked_identity {es : List (Entry R)} (h : Blocked es) : Blocked (identity es) := by
  obtain ⟨e, he, hu⟩ := h
  exact ⟨_, List.mem_map_of_mem he, unsearched_identity _ hu⟩

theorem blocked_prepare {v : Env R} {c : R} {N : Nat} {y : Nat → R} : ∀ {es : List (Entry R)} {a b : R}
    {q : List (Entry R) × R × R}, prepareLoop v c N y a b es = .ok q → Blocked es → Blocked q.1 := by
  intro es
  induction es with
  | nil =>
    rintro a b q - ⟨e, he, -⟩
    cases he
  | cons e es ih =>
    intro a b q h hb
    simp only [prepareLoop, SolveLoop.bind_eq_ok, Outcome.ok.injEq] at h
    obtain ⟨z, -, ⟨x', n, β⟩, h1, ⟨es', A, B⟩, h2, rfl⟩ := h
    obtain ⟨e', he, hu⟩ := hb
    rcases List.mem_cons.1 he with rfl | he
    · exact ⟨_, List.mem_cons_self, unsearched_prepare h1 hu⟩
    · obtain ⟨e'', he'', hu''⟩ := ih h2 ⟨e', he, hu⟩
      exact ⟨e'', List.mem_cons_of_mem _ he'', hu''⟩

theorem blocked_take {v : Env R} {size : R} : ∀ {es es' : List (Entry R)}, Dual.takeStep v size es = .ok es' →
    Blocked es → Blocked es' := by
  intro es
  induction es with
  | nil =>
    rintro es' - ⟨e, he, -⟩
    cases he
  | cons e es ih =>
    intro es' h hb
    simp only [Dual.takeStep, SolveLoop.bind_eq_ok, Outcome.ok.injEq] at h
    obtain ⟨x', h1, es'', h2, rfl⟩ := h
    obtain ⟨e', he, hu⟩ := hb
    rcases List.mem_cons.1 he with rfl | he
    · exact ⟨_, List.mem_cons_self, unsearched_take h1 hu⟩
    · obtain ⟨e'', he'', hu''⟩ := ih h2 ⟨e', he, hu⟩
      exact ⟨e'', List.mem_cons_of_mem _ he'', hu''⟩

theorem blocked_advance {v : Env R} {p : Iteration.Setup R} {cfg : SolveLoop.Config R} {i : Nat} {k : R}
    {x : Iteration.State R} {sys : List (Schur.Sys R)} {r : Sup.Resid R} {solver : Sup.Solver R}
    {a : Iteration.Step R × Iteration.State R} (h : advanceAt v p cfg i k x sys r solver = .ok a) (hb : Blocked x.es) :
    Blocked a.2.es := by
  unfold advanceAt at h
  split_ifs at h
  · simp only [advanceWarm, SolveLoop.bind_eq_ok] at h
    obtain ⟨y, -, q, h1, h2⟩ := h
    have hq : Blocked q.1 := blocked_prepare h1 hb
    split_ifs at h2
    · simp only [Outcome.ok.injEq] at h2
      subst h2
      exact blocked_identity hq
    · simp only [SolveLoop.bind_eq_ok, Outcome.ok.injEq] at h2
      obtain ⟨es, h3, rfl⟩ := h2
      exact blocked_take h3 hq
  · simp only [Iteration.advance, SolveLoop.bind_eq_ok, Outcome.ok.injEq] at h
    obtain ⟨y, -, q, h1, es, h3, rfl⟩ := h
    exact blocked_take h3 (blocked_prepare h1 hb)

/-- The line search fails. -/
theorem blocked_search {S : Search R} {c0 c1 : R} {N : Nat} {y0 y1 : Nat → R} : ∀ {es : List (Entry R)}
    {out : Interval R} {o : Option (Interval R)}, searchEntries S c0 c1 N y0 y1 es out = .ok o → Blocked es → o = none := by
  intro es
  induction es with
  | nil =>
    rintro out o - ⟨e, he, -⟩
    cases he
  | cons e es ih =>
    intro out o h hb
    simp only [searchEntries, SolveLoop.bind_eq_ok] at h
    obtain ⟨z0, -, z1, -, r, h1, h2⟩ := h
    obtain ⟨e', he, hu⟩ := hb
    rcases List.mem_cons.1 he with rfl | he
    · have hr : r.1 = true := by
        obtain ⟨vars, x⟩ := e'
        cases x <;> first | exact hu.elim | (simp only [itemSearch, Outcome.ok.injEq] at h1; subst h1; rfl)
      rw [if_pos hr, Outcome.ok.injEq] at h2
      exact h2.symm
    · by_cases hr : r.1 = true
      · rw [if_pos hr, Outcome.ok.injEq] at h2
        exact h2.symm
      · rw [if_neg hr] at h2
        exact ih h2 ⟨e', he, hu⟩

theorem blocked_mu {S : Search R} {p : Iteration.Setup R} {es : List (Entry R)} {r : Sup.Resid R} {solver : Sup.Solver R}
    {t : R} (h : searchMu S p es r solver = .ok t) (hb : Blocked es) : t = -1 := by
  simp only [searchMu, SolveLoop.bind_eq_ok] at h
  obtain ⟨y0, -, y1, -, o, h1, h2⟩ := h
  rw [blocked_search h1 hb] at h2
  simp only [searchResult, Outcome.ok.injEq] at h2
  exact h2.symm

variable [IsStrictOrderedRing R]

/-- The limits leave only the lower one. -/
theorem limits_low {x lb ub : R} (h : x ≤ lb) : SolveLoop.applyLimits x lb ub = lb := by
  unfold SolveLoop.applyLimits
  simp only
  split_ifs with h1 h2 h2
  · rfl
  · exact absurd (h1.trans_le h) h2
  · rfl
  · exact le_antisymm h (not_lt.1 h2)

/-- What the loop keeps: the barrier parameter is at most the lower limit, and equal to it after the first direction. -/
structure Stuck (kMin : R) (q : State R) : Prop where
  blocked : Blocked q.x.es
  low : q.s.k ≤ kMin
  pos : 0 ≤ q.s.k
  hit : q.s.stats.numIter = none ∨ q.s.k = kMin

theorem stuck_body {v : Env R} {S : Search R} {p : Iteration.Setup R} {cfg : SolveLoop.Config R} {quadratic : Bool}
    {i : Nat} {q : State R} {r : SolveLoop.Ctl × State R} (hline : cfg.lineSearch = true)
    (h : bodySearch v S p cfg quadratic i q = .ok r) (hq : Stuck (SolveLoop.kMin v.sqrt cfg) q) :
    Stuck (SolveLoop.kMin v.sqrt cfg) r.2 := by
  obtain ⟨hb, hlow, hpos, hhit⟩ := hq
  unfold bodySearch at h
  simp only at h
  by_cases hex : SolveLoop.finalCentering cfg i q.s = true ∧ cfg.finalSteps ≤ q.s.centering
  · rw [if_pos hex, Outcome.ok.injEq] at h
    subst h
    exact ⟨hb, hlow, hpos, hhit⟩
  · rw [if_neg hex] at h
    simp only [SolveLoop.bind_eq_ok] at h
    obtain ⟨f, -, s₁, h2, h3⟩ := h
    have hs₁ : s₁.k = q.s.k ∧ s₁.stats.numIter = q.s.stats.numIter := by
      unfold SolveLoop.rescale at h2
      simp only at h2
      split_ifs at h2 with h4 h5
      · simp only [SolveLoop.bind_eq_ok] at h2
        obtain ⟨b, -, c, -, h2⟩ := h2
        cases h2
        exact ⟨rfl, rfl⟩
      · simp only [SolveLoop.bind_eq_ok] at h2
        obtain ⟨b, -, c, -, h2⟩ := h2
        cases h2
        exact ⟨rfl, rfl⟩
      · cases h2
        exact ⟨rfl, rfl⟩
    cases hs : f.solver with
    | none =>
      rw [hs] at h3
      simp only at h3
      split_ifs at h3
      · rw [Outcome.ok.injEq] at h3
        subst h3
        exact ⟨blocked_identity hb, hs₁.1 ▸ hlow, hs₁.1 ▸ hpos, by simpa only [hs₁.1, hs₁.2] using hhit⟩
      · rw [Outcome.ok.injEq] at h3
        subst h3
        exact ⟨hb, hs₁.1 ▸ hlow, hs₁.1 ▸ hpos, by simpa only [hs₁.1, hs₁.2] using hhit⟩
    | some solver =>
      rw [hs] at h3
      simp only [SolveLoop.bind_eq_ok] at h3
      obtain ⟨bs, -, cs, -, t, h4, h6⟩ := h3
      simp only [chosenMu, SolveLoop.bind_eq_ok, Outcome.ok.injEq] at h4
      obtain ⟨t', h4, d', -, rfl⟩ := h4
      cases hm : SolveLoop.chooseMu cfg quadratic (answers (t', d')) i (SolveLoop.updateMu cfg i q.s)
          { s₁ with trace := .factor i true :: s₁.trace } with
      | none =>
        rw [hm] at h6
        rw [Outcome.ok.injEq] at h6
        subst h6
        exact ⟨hb, hs₁.1 ▸ hlow, hs₁.1 ▸ hpos, by simpa only [hs₁.1, hs₁.2] using hhit⟩
      | some s₂ =>
        rw [hm] at h6
        simp only [SolveLoop.bind_eq_ok, Outcome.ok.injEq] at h6
        obtain ⟨a, h7, w, h8, rfl⟩ := h6
        have hs₂ : s₂.k ≤ SolveLoop.kMin v.sqrt cfg := by
          rw [← hs₁.1] at hlow hpos
          unfold SolveLoop.chooseMu at hm
          split_ifs at hm with hu hi
          · have ht : t' = -1 := by
              rw [hu, hline] at h4
              exact blocked_mu h4 hb
            rw [Option.map_eq_some_iff] at hm
            obtain ⟨temp, h9, hm⟩ := hm
            subst ht
            have htemp : temp = s₁.k := by
              unfold SolveLoop.candidate answers at h9
              simp only [hline, if_true] at h9
              rw [if_pos (by linarith : (-1 : R) < 0), if_neg (not_lt.2 hpos), Option.some.injEq] at h9
              exact h9.symm
            split_ifs at hm
            · subst hm
              exact htemp ▸ hlow
            · subst hm
              show s₁.k * (1 / 2) ≤ _
              linarith
          · rw [Option.some.injEq] at hm
            exact hm ▸ hlow
          · rw [Option.some.injEq] at hm
            exact hm ▸ hlow
        have hk : w.2.k = SolveLoop.kMin v.sqrt cfg := by
          unfold SolveLoop.finish at h8
          simp only [SolveLoop.bind_eq_ok] at h8
          obtain ⟨-, -, -, -, h8⟩ := h8
          split_ifs at h8 <;> (cases h8; exact limits_low hs₂)
        have hmin : 0 ≤ SolveLoop.kMin v.sqrt cfg := hpos.trans hlow
        exact ⟨blocked_advance h7 hb, hk.le, hk ▸ hmin, Or.inr hk⟩

theorem stuck_loop {v : Env R} {S : Search R} {p : Iteration.Setup R} {cfg : SolveLoop.Config R} {quadratic : Bool}
    (hline : cfg.lineSearch = true) : ∀ (n i : Nat) (q : State R) (r : SolveLoop.Ctl × State R),
    loopSearch v S p cfg quadratic n i q = .ok r → Stuck (SolveLoop.kMin v.sqrt cfg) q →
    Stuck (SolveLoop.kMin v.sqrt cfg) r.2 := by
  intro n
  induction n with
  | zero =>
    intro i q r h hq
    rw [loopSearch, Outcome.ok.injEq] at h
    exact h ▸ hq
  | succ n ih =>
    intro i q r h hq
    simp only [loopSearch, SolveLoop.bind_eq_ok] at h
    obtain ⟨⟨d, q'⟩, h1, h2⟩ := h
    have := stuck_body hline h1 hq
    cases d
    case next => exact ih _ _ _ h2 this
    all_goals
      simp only [Outcome.ok.injEq] at h2
      subst h2
      exact this

end Verif.Whole
