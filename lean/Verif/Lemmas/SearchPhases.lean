import Verif.Lemmas.SearchLoop
import Verif.Props.CentralPoint

/-!
# The phases of a solve (C90, C91, C94)
-/

namespace Verif.Whole

open Finset LineSearch Centering Centering.Spec Whole.Spec Iteration.Spec
open Verif.Dual

/-- The options and functions of a solve on a cold start; `ε` bounds the squared length of the directions that are short. -/
structure Opts (v : Env ℝ) (cfg : SolveLoop.Config ℝ) (quadratic : Bool) (K : ℝ) (F : Nat) (ε : ℝ) : Prop where
  sqrt : ∀ x, 0 ≤ x → SolveLoop.Spec.SqrtAt v.sqrt x
  exp : v.exp = Real.exp
  mode : cfg.mode = 0
  choice : cfg.lineSearch = true ∨ quadratic = false
  plain : cfg.rescaling = false
  kkt : 0 ≤ cfg.kktTol
  min : 0 < SolveLoop.kMin v.sqrt cfg
  max : SolveLoop.kMin v.sqrt cfg ≤ K
  tol : 0 ≤ cfg.finalTol
  fine : 1 / 2 * (1 / 2) ^ 2 ^ F ≤ cfg.finalTol ^ 2
  short : ε ≤ 1 / 4
  steps : (F : Int) < cfg.finalSteps

theorem Opts.expPos {v : Env ℝ} {cfg : SolveLoop.Config ℝ} {quadratic : Bool} {K : ℝ} {F : Nat} {ε : ℝ}
    (h : Opts v cfg quadratic K F ε) : ∀ x, 0 < v.exp x := fun x => h.exp ▸ Real.exp_pos x

/-- Where the direction is short, the chosen parameter is larger by the factor `1 + τ` (or the largest one), and after the
step with it the direction is short again. -/
def Grows (v : Env ℝ) (S : Search ℝ) (p : Iteration.Setup ℝ) (duals : List (List Nat)) (cfg : SolveLoop.Config ℝ)
    (quadratic : Bool) (I : List (Entry ℝ) → Prop) (A : Iteration.Step ℝ → Prop) (K τ ε : ℝ) : Prop :=
  ∀ (x x' : Iteration.State ℝ) (st : Iteration.Step ℝ) (k : ℝ) (f : Iteration.Factored ℝ) (solver : Sup.Solver ℝ) (a : ℝ × ℝ)
    (t : ℝ) (i : Nat), Ready (scaled p 1 1) duals x → I x.es → SolveLoop.kMin v.sqrt cfg ≤ k → k ≤ K →
    Iteration.iterate v (scaled p 1 1) k x = .ok (some (st, x')) → st.normsqrd ≤ ε →
    Iteration.factorize v (scaled p 1 1) x = .ok f → f.solver = some solver →
    chosenMu v S (scaled p 1 1) cfg quadratic true k x.es f.r solver = .ok a →
    SolveLoop.candidate cfg quadratic (answers a) i k = some t →
    min ((1 + τ) * k) K ≤ t ∧ ∀ k', min ((1 + τ) * k) K ≤ k' → k' ≤ t →
      ∀ (st₁ : Iteration.Step ℝ) (x₁ : Iteration.State ℝ), Iteration.iterate v (scaled p 1 1) k' x = .ok (some (st₁, x₁)) →
        A st₁ ∧ ∀ (st₂ : Iteration.Step ℝ) (x₂ : Iteration.State ℝ),
          Iteration.iterate v (scaled p 1 1) k' x₁ = .ok (some (st₂, x₂)) → st₂.normsqrd ≤ ε

/-- The loop ends at the largest barrier parameter after a short direction. -/
def Succeeds (v : Env ℝ) (S : Search ℝ) (p : Iteration.Setup ℝ) (duals : List (List Nat)) (cfg : SolveLoop.Config ℝ)
    (quadratic : Bool) (I : List (Entry ℝ) → Prop) (A : Iteration.Step ℝ → Prop) (K : ℝ) (fuel i : Nat) (q : State ℝ) : Prop :=
  ∃ q' st m, loopSearch v S p cfg quadratic fuel i q = .ok (.brk, q') ∧ q'.s.maxReached = false ∧ q'.s.k = K ∧
    q'.s.kMax = K ∧ q'.last = some st ∧ |st.norm| ≤ cfg.finalTol ∧ q'.s.stats.numIter = some m ∧
    q'.s.stats.bScale = some 1 ∧ q'.s.stats.cScale = some 1 ∧ 0 ≤ st.normsqrd ∧ Ready (scaled p 1 1) duals q'.x ∧
    ∃ x, Ready (scaled p 1 1) duals x ∧ I x.es ∧ A st ∧ Iteration.iterate v (scaled p 1 1) K x = .ok (some (st, q'.x))

theorem norm_abs {es es' : List (Entry ℝ)} {N : Nat} {g : Nat → ℝ} {c : ℝ} {y : Nat → ℝ} {A B : ℝ}
    (h : Iterated es es' N g c y A B) (hn : 1 ≤ count es) : 0 ≤ A ∧ A ^ 2 ≤ B := by
  have h1 : ∃ i < es.length, 0 < (con (nth es i).item).n := by
    by_contra hcon
    push Not at hcon
    have : count es = 0 := sum_eq_zero fun i hi => by
      rw [Nat.le_zero.1 (hcon i (mem_range.1 hi)), Nat.cast_zero]
    linarith
  obtain ⟨i, hi, hr⟩ := h1
  have h2 := (abs_nonneg _).trans (h.bound i hi 0 hr)
  refine ⟨h2, ?_⟩
  rcases h.attained with h3 | h3
  · linarith
  · nlinarith

/-- One pass, in terms of the rest of the loop. -/
theorem loop_step {v : Env ℝ} {S : Search ℝ} {p : Iteration.Setup ℝ} {duals : List (List Nat)}
    {cfg : SolveLoop.Config ℝ} {quadratic : Bool} {K ε : ℝ} {F : Nat} (hO : Opts v cfg quadratic K F ε) {I : List (Entry ℝ) → Prop}
    {A : Iteration.Step ℝ → Prop} (hI : Regime v S (scaled p 1 1) duals quadratic I A) {i fuel : Nat}
    {q : State ℝ} (h : Base p duals cfg I K q) (hk : 0 ≤ q.s.k) (hi : (i : Int) < cfg.maxIter)
    (hno : ¬ (SolveLoop.finalCentering cfg i q.s = true ∧ cfg.finalSteps ≤ q.s.centering))
    (hfc : SolveLoop.finalCentering cfg i q.s = true → q.s.k = K ∧ SolveLoop.updateMu cfg i q.s = false)
    (hA : ∀ t st x', (SolveLoop.updateMu cfg i q.s = true → ∃ f solver a, Iteration.factorize v (scaled p 1 1) q.x = .ok f ∧
        f.solver = some solver ∧ chosenMu v S (scaled p 1 1) cfg quadratic true q.s.k q.x.es f.r solver = .ok a ∧
        SolveLoop.candidate cfg quadratic (answers a) i q.s.k = some t) →
      Iteration.iterate v (scaled p 1 1) (nextK cfg v.sqrt K q.s.k t (SolveLoop.updateMu cfg i q.s)) q.x = .ok (some (st, x')) →
      A st ∨ nextK cfg v.sqrt K q.s.k t (SolveLoop.updateMu cfg i q.s) < K ∧ Ready (scaled p 1 1) duals x' ∧ I x'.es) :
    ∃ t st q', (SolveLoop.updateMu cfg i q.s = true → ∃ f solver a, Iteration.factorize v (scaled p 1 1) q.x = .ok f ∧
        f.solver = some solver ∧ chosenMu v S (scaled p 1 1) cfg quadratic true q.s.k q.x.es f.r solver = .ok a ∧
        SolveLoop.candidate cfg quadratic (answers a) i q.s.k = some t) ∧
      q'.s.k = nextK cfg v.sqrt K q.s.k t (SolveLoop.updateMu cfg i q.s) ∧
      SolveLoop.kMin v.sqrt cfg ≤ q'.s.k ∧ q'.s.k ≤ K ∧
      Iteration.iterate v (scaled p 1 1) q'.s.k q.x = .ok (some (st, q'.x)) ∧
      Base p duals cfg I K q' ∧
      q'.s.centering = (if SolveLoop.updateMu cfg i q.s = false ∧ SolveLoop.initialCentering cfg i = false
        then q.s.centering + 1 else q.s.centering) ∧
      ((¬ (K ≤ q'.s.k ∧ |st.norm| ≤ cfg.finalTol) → Succeeds v S p duals cfg quadratic I A K fuel (i + 1) q') →
        Succeeds v S p duals cfg quadratic I A K (fuel + 1) i q) := by
  obtain ⟨t, st, x', d, q', h1, h2, h3, h4, rfl, h5, hAst, h6, h7, h8, h9⟩ := body_step (S := S) hO.sqrt hO.exp hO.mode
    hO.plain hO.kkt hO.min hO.choice hI h hk hi hno hA
  have hle : q'.s.k ≤ K := by
    rw [h3]
    exact (SolveLoop.applyLimits_le _ _ _).trans (max_le hO.max le_rfl)
  have hge : SolveLoop.kMin v.sqrt cfg ≤ q'.s.k := by
    rw [h3]
    exact SolveLoop.applyLimits_ge _ _ _
  refine ⟨t, st, q', h2, h3, hge, hle, h4, h6, h8, fun hrest => ?_⟩
  by_cases hb : (SolveLoop.finalCentering cfg i q.s = true ∨ K ≤ q'.s.k) ∧ |st.norm| ≤ cfg.finalTol
  · rw [if_pos hb] at h9
    obtain ⟨rfl, h10⟩ := h9
    have hK : K ≤ q'.s.k := by
      rcases hb.1 with hb | hb
      · obtain ⟨e1, e2⟩ := hfc hb
        rw [h3, e1, e2, nextK, if_neg (by simp)]
        exact SolveLoop.le_applyLimits le_rfl
      · exact hb
    have hk' := le_antisymm hle hK
    have hAst := hAst.resolve_right (not_lt.2 hK)
    refine ⟨q', st, i + 1, ?_, h10, hk', h6.kMax, h5, hb.2, h7, h6.bScale, h6.cScale,
      (hI.norm _ _ _ _ h.ready h.regime h4 hAst).1, h6.ready, q.x, h.ready, h.regime, hAst, hk' ▸ h4⟩
    simp only [loopSearch, h1, Outcome.bind_ok]
  · rw [if_neg hb] at h9
    subst h9
    obtain ⟨q'', st', m, g1, g2⟩ := hrest fun hcon => hb ⟨Or.inr hcon.1, hcon.2⟩
    refine ⟨q'', st', m, ?_, g2⟩
    simp only [loopSearch, h1, Outcome.bind_ok]
    exact g1

theorem final_eq {cfg : SolveLoop.Config ℝ} {I : List (Entry ℝ) → Prop} {p : Iteration.Setup ℝ} {duals : List (List Nat)} {K : ℝ}
    {q : State ℝ} (h : Base p duals cfg I K q) {i : Nat} (hi : (i : Int) < cfg.maxIter - cfg.finalSteps) :
    SolveLoop.finalCentering cfg i q.s = decide (K ≤ q.s.k) := by
  unfold SolveLoop.finalCentering
  rw [h.kMax, decide_eq_false (not_lt.2 h.kkt), decide_eq_false (not_le.2 hi), Bool.or_false, Bool.or_false]

/-- At the largest barrier parameter. -/
theorem phase_final {v : Env ℝ} {S : Search ℝ} {p : Iteration.Setup ℝ} {duals : List (List Nat)}
    {cfg : SolveLoop.Config ℝ} {quadratic : Bool} {K ε : ℝ} {F : Nat} (hO : Opts v cfg quadratic K F ε) {I : List (Entry ℝ) → Prop}
    {A : Iteration.Step ℝ → Prop} (hI : Regime v S (scaled p 1 1) duals quadratic I A) :
    ∀ (l m i fuel : Nat) (q : State ℝ), m + l = F → Base p duals cfg I K q → q.s.k = K →
      q.s.centering = m → SolveLoop.initialCentering cfg i = false → 0 < i → i + fuel = cfg.maxIter.toNat → l < fuel →
      (∀ st x', Iteration.iterate v (scaled p 1 1) K q.x = .ok (some (st, x')) →
        st.normsqrd ≤ 1 / 2 * (1 / 2) ^ 2 ^ m) → Succeeds v S p duals cfg quadratic I A K fuel i q := by
  intro l
  induction l with
  | zero =>
    intro m i fuel q hm h hk hc hin hi hfuel hl hq
    obtain ⟨fuel, rfl⟩ : ∃ f, fuel = f + 1 := ⟨fuel - 1, by omega⟩
    have hK : 0 < K := hO.min.trans_le hO.max
    have hfc : SolveLoop.finalCentering cfg i q.s = true := by
      unfold SolveLoop.finalCentering
      simp [h.kMax, hk]
    have hupd : SolveLoop.updateMu cfg i q.s = false := by
      unfold SolveLoop.updateMu
      rw [hfc, h.aborted, decide_eq_false hi.ne']
      simp
    have hnk : ∀ t, nextK cfg v.sqrt K q.s.k t (SolveLoop.updateMu cfg i q.s) = K := by
      intro t
      rw [hupd, hk, nextK, if_neg (by simp)]
      exact le_antisymm ((SolveLoop.applyLimits_le _ _ _).trans (max_le hO.max le_rfl)) (SolveLoop.le_applyLimits le_rfl)
    have hA : ∀ st x', Iteration.iterate v (scaled p 1 1) K q.x = .ok (some (st, x')) → A st := by
      intro st x' hst
      have e1 : (1 / 2 : ℝ) ^ 2 ^ m ≤ 1 := pow_le_one₀ (by norm_num) (by norm_num)
      exact hI.short _ (by linarith [hq st x' hst])
    obtain ⟨t, st, q', -, h1, -, h2, h3, h4, -, h5⟩ := loop_step (S := S) (fuel := fuel) hO hI h (hk ▸ hK.le) (i := i) (by omega)
      (by rintro ⟨-, h0⟩; have := hO.steps; omega) (fun _ => ⟨hk, hupd⟩) fun t st x' _ hst => Or.inl (hA st x' (hnk t ▸ hst))
    have hk' : q'.s.k = K := by rw [h1, hnk]
    rw [hk'] at h3
    refine h5 fun hcon => (hcon ⟨hk'.ge, ?_⟩).elim
    obtain ⟨e1, e2⟩ := hI.norm _ _ _ _ h.ready h.regime h3 (hA _ _ h3)
    refine abs_le_of_sq_le_sq ?_ hO.tol
    have e3 := hq _ _ h3
    obtain rfl : m = F := by omega
    exact e2.trans (e3.trans hO.fine)
  | succ l ih =>
    intro m i fuel q hm h hk hc hin hi hfuel hl hq
    obtain ⟨fuel, rfl⟩ : ∃ f, fuel = f + 1 := ⟨fuel - 1, by omega⟩
    have hK : 0 < K := hO.min.trans_le hO.max
    have hfc : SolveLoop.finalCentering cfg i q.s = true := by
      unfold SolveLoop.finalCentering
      simp [h.kMax, hk]
    have hupd : SolveLoop.updateMu cfg i q.s = false := by
      unfold SolveLoop.updateMu
      rw [hfc, h.aborted, decide_eq_false hi.ne']
      simp
    have hnk : ∀ t, nextK cfg v.sqrt K q.s.k t (SolveLoop.updateMu cfg i q.s) = K := by
      intro t
      rw [hupd, hk, nextK, if_neg (by simp)]
      exact le_antisymm ((SolveLoop.applyLimits_le _ _ _).trans (max_le hO.max le_rfl)) (SolveLoop.le_applyLimits le_rfl)
    have hA : ∀ st x', Iteration.iterate v (scaled p 1 1) K q.x = .ok (some (st, x')) → A st := by
      intro st x' hst
      have e1 : (1 / 2 : ℝ) ^ 2 ^ m ≤ 1 := pow_le_one₀ (by norm_num) (by norm_num)
      exact hI.short _ (by linarith [hq st x' hst])
    obtain ⟨t, st, q', -, h1, -, h2, h3, h4, h4', h5⟩ := loop_step (S := S) (fuel := fuel) hO hI h (hk ▸ hK.le) (i := i) (by omega)
      (by rintro ⟨-, h0⟩; have := hO.steps; omega) (fun _ => ⟨hk, hupd⟩) fun t st x' _ hst => Or.inl (hA st x' (hnk t ▸ hst))
    have hk' : q'.s.k = K := by rw [h1, hnk]
    rw [hk'] at h3
    rw [if_pos ⟨hupd, hin⟩] at h4'
    refine h5 fun _ => ih (m + 1) (i + 1) fuel q' (by omega) h4 hk' (by rw [h4', hc]; push_cast; ring) ?_ (by omega) (by omega)
      (by omega) fun st' x'' h6 => ?_
    · unfold SolveLoop.initialCentering at hin ⊢
      simp only [decide_eq_false_iff_not, not_lt] at hin ⊢
      push_cast
      omega
    · have e1 := hq _ _ h3
      have e2 : (1 / 2 : ℝ) ^ 2 ^ m ≤ 1 := pow_le_one₀ (by norm_num) (by norm_num)
      have e3 := hI.quadratic _ _ _ _ _ _ h.ready h.regime h3 h4.ready h6 (by linarith)
      have e5 : st.normsqrd ^ 2 ≤ (1 / 2 * (1 / 2) ^ 2 ^ m) ^ 2 := pow_le_pow_left₀ (hI.norm _ _ _ _ h.ready h.regime h3 (hA _ _ h3)).1 e1 2
      have e6 : (2 : ℝ) * (1 / 2 * (1 / 2) ^ 2 ^ m) ^ 2 = 1 / 2 * (1 / 2) ^ 2 ^ (m + 1) := by
        rw [mul_pow, ← pow_mul, ← pow_succ]
        ring
      linarith

/-- The barrier parameter grows. -/
theorem phase_grow {v : Env ℝ} {S : Search ℝ} {p : Iteration.Setup ℝ} {duals : List (List Nat)}
    {cfg : SolveLoop.Config ℝ} {quadratic : Bool} {K ε : ℝ} {F : Nat} (hO : Opts v cfg quadratic K F ε) {I : List (Entry ℝ) → Prop}
    {A : Iteration.Step ℝ → Prop} (hI : Regime v S (scaled p 1 1) duals quadratic I A) {τ : ℝ} (hτ : 0 ≤ τ) (hG : Grows v S p duals cfg quadratic I A K τ ε) :
    ∀ (J i fuel : Nat) (q : State ℝ), Base p duals cfg I K q → SolveLoop.kMin v.sqrt cfg ≤ q.s.k → q.s.k ≤ K →
      K ≤ (1 + τ) ^ J * q.s.k → q.s.centering = 0 → SolveLoop.initialCentering cfg i = false → 0 < i →
      i + fuel = cfg.maxIter.toNat → (i + J : Int) ≤ cfg.maxIter - cfg.finalSteps →
      (∀ st x', Iteration.iterate v (scaled p 1 1) q.s.k q.x = .ok (some (st, x')) → st.normsqrd ≤ ε) →
      Succeeds v S p duals cfg quadratic I A K fuel i q := by
  intro J
  induction J with
  | zero =>
    intro i fuel q h hk1 hk2 hJ hc hin hi hfuel hsteps hq
    have hk : q.s.k = K := le_antisymm hk2 (by simpa using hJ)
    refine phase_final hO hI F 0 i fuel q (by omega) h hk (by simpa using hc) hin hi hfuel (by have := hO.steps; omega) fun st x' hst => ?_
    rw [hk] at hq
    have h1 := hq st x' hst
    have h2 := hO.short
    norm_num
    linarith
  | succ J ih =>
    intro i fuel q h hk1 hk2 hJ hc hin hi hfuel hsteps hq
    have hF := hO.steps
    rcases hk2.eq_or_lt with hk | hk
    · refine phase_final hO hI F 0 i fuel q (by omega) h hk (by simpa using hc) hin hi hfuel (by omega) fun st x' hst => ?_
      rw [hk] at hq
      have h1 := hq st x' hst
      have h2 := hO.short
      norm_num
      linarith
    obtain ⟨fuel, rfl⟩ : ∃ f, fuel = f + 1 := ⟨fuel - 1, by omega⟩
    have hkpos : 0 < q.s.k := hO.min.trans_le hk1
    have hfc : SolveLoop.finalCentering cfg i q.s = false := by
      rw [final_eq h (by omega), decide_eq_false (not_le.2 hk)]
    have hupd : SolveLoop.updateMu cfg i q.s = true := by
      unfold SolveLoop.updateMu
      rw [hfc, hin]
      simp
    obtain ⟨st₀, x₀, h0, -⟩ := Iteration.iterate_total hO.sqrt hO.expPos h.ready q.s.k
    have hmin : q.s.k ≤ min ((1 + τ) * q.s.k) K := le_min (by nlinarith) hk2
    have hnext : ∀ t, (SolveLoop.updateMu cfg i q.s = true → ∃ f solver a, Iteration.factorize v (scaled p 1 1) q.x = .ok f ∧
        f.solver = some solver ∧ chosenMu v S (scaled p 1 1) cfg quadratic true q.s.k q.x.es f.r solver = .ok a ∧
        SolveLoop.candidate cfg quadratic (answers a) i q.s.k = some t) →
        min ((1 + τ) * q.s.k) K ≤ nextK cfg v.sqrt K q.s.k t (SolveLoop.updateMu cfg i q.s) ∧
        ∀ (st₁ : Iteration.Step ℝ) (x₁ : Iteration.State ℝ),
          Iteration.iterate v (scaled p 1 1) (nextK cfg v.sqrt K q.s.k t (SolveLoop.updateMu cfg i q.s)) q.x =
            .ok (some (st₁, x₁)) → A st₁ ∧ ∀ (st₂ : Iteration.Step ℝ) (x₂ : Iteration.State ℝ),
          Iteration.iterate v (scaled p 1 1) (nextK cfg v.sqrt K q.s.k t (SolveLoop.updateMu cfg i q.s)) x₁ =
            .ok (some (st₂, x₂)) → st₂.normsqrd ≤ ε := by
      intro t h1
      obtain ⟨f, solver, a, g1, g2, g3, g3'⟩ := h1 hupd
      obtain ⟨g4, g5⟩ := hG _ _ _ _ _ _ _ _ _ h.ready h.regime hk1 hk2 h0 (hq _ _ h0) g1 g2 g3 g3'
      have hu0 : 0 < t := hkpos.trans_le (hmin.trans g4)
      have hk' : nextK cfg v.sqrt K q.s.k t (SolveLoop.updateMu cfg i q.s) = min t K := by
        rw [hupd, nextK, if_pos rfl, if_pos hu0]
        unfold SolveLoop.applyLimits
        simp only
        rcases lt_or_ge K t with h9 | h9
        · rw [if_pos h9, if_neg (not_lt.2 hO.max), min_eq_right h9.le]
        · rw [if_neg (not_lt.2 h9), if_neg (not_lt.2 ((hk1.trans hmin).trans g4)), min_eq_left h9]
      have e1 : min ((1 + τ) * q.s.k) K ≤ min t K := le_min g4 (min_le_right _ _)
      rw [hk']
      exact ⟨e1, g5 _ e1 (min_le_left _ _)⟩
    obtain ⟨t, st, q', h1, h2, h3, h4, h5, h6, h7, h8⟩ := loop_step (S := S) (fuel := fuel) hO hI h hkpos.le (i := i) (by omega)
      (by rw [hfc]; simp) (by rw [hfc]; simp) fun t st x' h1 hst => Or.inl ((hnext t h1).2 st x' hst).1
    obtain ⟨e1, g5⟩ := hnext t h1
    rw [← h2] at e1 g5
    rw [if_neg (by rw [hupd]; simp)] at h7
    refine h8 fun _ => ih (i + 1) fuel q' h6 h3 h4 ?_ (h7.trans hc) ?_ (by omega) (by omega) (by push_cast at hsteps ⊢; omega)
      fun st' x'' h9 => ?_
    · have e3 : (1 : ℝ) ≤ (1 + τ) ^ J := one_le_pow₀ (by linarith)
      rcases min_le_iff.1 e1 with e4 | e4
      · calc K ≤ (1 + τ) ^ (J + 1) * q.s.k := hJ
          _ = (1 + τ) ^ J * ((1 + τ) * q.s.k) := by ring
          _ ≤ _ := mul_le_mul_of_nonneg_left e4 (by linarith)
      · nlinarith [hO.min.trans_le hO.max]
    · unfold SolveLoop.initialCentering at hin ⊢
      simp only [decide_eq_false_iff_not, not_lt] at hin ⊢
      push_cast
      omega
    · exact (g5 _ _ h5).2 _ _ h9

/-- Initial centering, after the first iteration. -/
theorem phase_initial {v : Env ℝ} {S : Search ℝ} {p : Iteration.Setup ℝ} {duals : List (List Nat)}
    {cfg : SolveLoop.Config ℝ} {quadratic : Bool} {K ε : ℝ} {F : Nat} (hO : Opts v cfg quadratic K F ε) {I : List (Entry ℝ) → Prop}
    {A : Iteration.Step ℝ → Prop} (hI : Regime v S (scaled p 1 1) duals quadratic I A) {τ : ℝ} (hτ : 0 ≤ τ) (hG : Grows v S p duals cfg quadratic I A K τ ε) {k : ℝ}
    (hk1 : SolveLoop.kMin v.sqrt cfg ≤ k) (hk2 : k ≤ K) {J : Nat} (hJ : K ≤ (1 + τ) ^ J * k)
    {X : Nat → Iteration.State ℝ} {ST : Nat → Iteration.Step ℝ}
    (hX : ∀ l, Iteration.iterate v (scaled p 1 1) k (X l) = .ok (some (ST l, X (l + 1))))
    (hAX : ∀ l, A (ST l) ∨ k < K ∧ Ready (scaled p 1 1) duals (X (l + 1)) ∧ I (X (l + 1)).es)
    (hST : (ST cfg.initCold.toNat).normsqrd ≤ ε) (hsteps : cfg.initCold + J ≤ cfg.maxIter - cfg.finalSteps)
    (hfs : 0 < cfg.finalSteps) :
    ∀ (l i fuel : Nat) (q : State ℝ), i + l = cfg.initCold.toNat → Base p duals cfg I K q → q.s.k = k →
      q.s.centering = 0 → q.x = X i → 0 < i → i + fuel = cfg.maxIter.toNat →
      Succeeds v S p duals cfg quadratic I A K fuel i q := by
  intro l
  induction l with
  | zero =>
    intro i fuel q hil h hk hc hx hi hfuel
    refine phase_grow hO hI hτ hG J i fuel q h (hk ▸ hk1) (hk ▸ hk2) (hk ▸ hJ) hc ?_ hi hfuel (by omega) fun st x' hst => ?_
    · unfold SolveLoop.initialCentering SolveLoop.initialSteps
      rw [if_neg (by rw [hO.mode]; simp)]
      simp only [decide_eq_false_iff_not, not_lt]
      omega
    · rw [hk, hx, hX, Outcome.ok.injEq, Option.some.injEq, Prod.mk.injEq] at hst
      rw [← hst.1, show i = cfg.initCold.toNat by omega]
      exact hST
  | succ l ih =>
    intro i fuel q hil h hk hc hx hi hfuel
    obtain ⟨fuel, rfl⟩ : ∃ f, fuel = f + 1 := ⟨fuel - 1, by omega⟩
    have hin : SolveLoop.initialCentering cfg i = true := by
      unfold SolveLoop.initialCentering SolveLoop.initialSteps
      rw [if_neg (by rw [hO.mode]; simp)]
      simp only [decide_eq_true_eq]
      omega
    have hupd : SolveLoop.updateMu cfg i q.s = false := by
      unfold SolveLoop.updateMu
      rw [hin, h.aborted, decide_eq_false hi.ne']
      simp
    have hnk : ∀ t, nextK cfg v.sqrt K q.s.k t (SolveLoop.updateMu cfg i q.s) = k := by
      intro t
      rw [hupd, hk, nextK, if_neg (by simp)]
      unfold SolveLoop.applyLimits
      simp only
      rw [if_neg (not_lt.2 hk2), if_neg (not_lt.2 hk1)]
    obtain ⟨t, st, q', -, h1, -, h2, h3, h4, h4', h5⟩ := loop_step (S := S) (fuel := fuel) hO hI h
      (hk ▸ hO.min.le.trans hk1) (i := i) (by omega) (by rintro ⟨-, h0⟩; omega) (fun hfc => ⟨by
        rw [final_eq h (by omega), decide_eq_true_eq] at hfc
        exact le_antisymm (hk ▸ hk2) hfc, hupd⟩) fun t st x' _ hst => by
        rw [hnk, hx, hX, Outcome.ok.injEq, Option.some.injEq, Prod.mk.injEq] at hst
        rw [← hst.1, ← hst.2, hnk]
        exact hAX i
    have hk' : q'.s.k = k := by rw [h1, hnk]
    rw [if_neg (by rw [hin]; simp)] at h4'
    rw [hk', hx, hX, Outcome.ok.injEq, Option.some.injEq, Prod.mk.injEq] at h3
    exact h5 fun _ => ih (i + 1) fuel q' (by omega) h4 hk' (h4'.trans hc) h3.2.symm (by omega) (by omega)

/-- The whole loop. -/
theorem loop_succeeds {v : Env ℝ} {S : Search ℝ} {p : Iteration.Setup ℝ} {duals : List (List Nat)}
    {cfg : SolveLoop.Config ℝ} {quadratic : Bool} {K ε : ℝ} {F : Nat} (hO : Opts v cfg quadratic K F ε) {I : List (Entry ℝ) → Prop}
    {A : Iteration.Step ℝ → Prop} (hI : Regime v S (scaled p 1 1) duals quadratic I A) {τ : ℝ} (hτ : 0 ≤ τ) (hG : Grows v S p duals cfg quadratic I A K τ ε) {J : Nat}
    (hJ : K ≤ (1 + τ) ^ J * SolveLoop.kMin v.sqrt cfg)
    (hsteps : cfg.initCold + J ≤ cfg.maxIter - cfg.finalSteps) {q : State ℝ} (h : Base p duals cfg I K q)
    (hk : q.s.k = 0) (hc : q.s.centering = 0) (hinit : 0 < cfg.initCold)
    (hz : ∀ (f : Iteration.Factored ℝ) (solver : Sup.Solver ℝ) (a : ℝ × ℝ) (t k : ℝ),
      Iteration.factorize v (scaled p 1 1) q.x = .ok f → f.solver = some solver →
      chosenMu v S (scaled p 1 1) cfg quadratic true 0 q.x.es f.r solver = .ok a →
      SolveLoop.candidate cfg quadratic (answers a) 0 0 = some t → k = nextK cfg v.sqrt K 0 t true →
      SolveLoop.kMin v.sqrt cfg ≤ k → k ≤ K → ∃ (X : Nat → Iteration.State ℝ) (ST : Nat → Iteration.Step ℝ),
      X 0 = q.x ∧ (∀ l, Iteration.iterate v (scaled p 1 1) k (X l) = .ok (some (ST l, X (l + 1)))) ∧
      (∀ l, A (ST l) ∨ k < K ∧ Ready (scaled p 1 1) duals (X (l + 1)) ∧ I (X (l + 1)).es) ∧
      (ST cfg.initCold.toNat).normsqrd ≤ ε) :
    Succeeds v S p duals cfg quadratic I A K cfg.maxIter.toNat 0 q := by
  have hF := hO.steps
  have hK : 0 < K := hO.min.trans_le hO.max
  obtain ⟨fuel, hfuel⟩ : ∃ f, cfg.maxIter.toNat = f + 1 := ⟨cfg.maxIter.toNat - 1, by omega⟩
  have hfc : SolveLoop.finalCentering cfg 0 q.s = false := by
    rw [final_eq h (by push_cast; omega), hk, decide_eq_false (not_le.2 hK)]
  have hupd : SolveLoop.updateMu cfg 0 q.s = true := by
    unfold SolveLoop.updateMu
    simp
  have hle : ∀ t, SolveLoop.kMin v.sqrt cfg ≤ nextK cfg v.sqrt K 0 t true ∧ nextK cfg v.sqrt K 0 t true ≤ K := fun t =>
    ⟨SolveLoop.applyLimits_ge _ _ _, (SolveLoop.applyLimits_le _ _ _).trans (max_le hO.max le_rfl)⟩
  obtain ⟨t, st, q', h1, h1', h2, h3, h4, h5, h6, h7⟩ := loop_step (S := S) (fuel := fuel) hO hI h hk.ge (i := 0)
    (by push_cast; omega) (by rw [hfc]; simp) (by rw [hfc]; simp) fun t st x' h1 hst => by
      obtain ⟨f, solver, a, g1, g2, g3, g4⟩ := h1 hupd
      rw [hk] at g3 g4 hst
      rw [hupd] at hst
      obtain ⟨X, ST, e1, e2, e3, -⟩ := hz _ _ _ _ _ g1 g2 g3 g4 rfl (hle t).1 (hle t).2
      have := e2 0
      rw [e1, hst, Outcome.ok.injEq, Option.some.injEq, Prod.mk.injEq] at this
      rw [this.1, this.2, hk, hupd]
      exact e3 0
  rw [hfuel]
  refine h7 fun _ => ?_
  obtain ⟨f, solver, a, g1, g2, g3, g4⟩ := h1 hupd
  rw [hk] at g3 g4 h1'
  rw [hupd] at h1'
  obtain ⟨X, ST, e1, e2, e5, e6⟩ := hz _ _ _ _ _ g1 g2 g3 g4 h1' h2 h3
  have e4 : X 1 = q'.x := by
    have := e2 0
    rw [e1, h4, Outcome.ok.injEq, Option.some.injEq, Prod.mk.injEq] at this
    exact this.2.symm
  refine phase_initial hO hI hτ hG h2 h3 (hJ.trans (mul_le_mul_of_nonneg_left h2 (by positivity))) e2 e5 e6 hsteps
    (by omega) (cfg.initCold.toNat - 1) (0 + 1) fuel q' (by omega) h5 rfl ?_ e4.symm (by omega) (by omega)
  rw [h6, if_neg (by rw [hupd]; simp), hc]

end Verif.Whole
