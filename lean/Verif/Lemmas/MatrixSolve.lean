import Verif.Lemmas.MatrixDivergence
import Verif.Lemmas.SearchSolve
import Verif.Props.MatrixCentering

/-!
# Solving programs with matrix inequalities (C96)
-/

namespace Verif.MatrixCentering

open Matrix Finset Gap.Spec Gap Verif.Dual Centering.Spec Whole Whole.Spec Iteration.Spec

/-! ### The norm that is reported -/

/-- The approximation of the extreme eigenvalues is defined. -/
theorem lmi_found {v : Env ℝ} (hv : ∀ x, 0 ≤ x → SolveLoop.Spec.SqrtAt v.sqrt x) (ht : Lmi.Spec.TriEigenvalues v.tri)
    {m : Nat} {o : Lmi.Con m ℝ} {w : Lmi.Ws m ℝ} (ho : Lmi.Spec.Symmetric o) (hW : w.W.PosDef) {c : ℝ} {ny : Nat}
    {y : Nat → ℝ} {x' : Item ℝ} {n : Option ℝ} {b : ℝ} (hp : (Item.lmi m o w).prepareStep v c ny y = .ok (x', n, b))
    (hb : b < 1) : ∃ n', n = some n' ∧ 0 ≤ n' := by
  obtain ⟨-, -, V, d, e1, -, e3, e4, -⟩ := lmi_direction hv ht ho hW hp
  set S := Lmi.Spec.slack o c y with hS
  cases hq : Lmi.prepareStep v.sqrt v.tri o c 1 ny y w with
  | throws => simp [Item.prepareStep, hq] at hp
  | ub => simp [Item.prepareStep, hq] at hp
  | diverges => simp [Item.prepareStep, hq] at hp
  | ok q =>
    obtain ⟨w', n', b'⟩ := q
    simp only [Item.prepareStep, hq, Outcome.bind_ok, Outcome.ok.injEq, Prod.mk.injEq] at hp
    obtain ⟨-, rfl, rfl⟩ := hp
    obtain ⟨-, rfl, ⟨i₀, g⟩, -⟩ := Lmi.prepareStep_inv hq
    have hcol : (fun r => (w.W * -S) r i₀) ≠ 0 := by
      intro h0
      have : MatrixExp.Spec.Eigenvalue (w.W * S) 0 := by
        refine ⟨Pi.single i₀ 1, by simp, ?_⟩
        rw [zero_smul]
        ext r
        have := congrFun h0 r
        rw [Matrix.mul_neg] at this
        simp only [Matrix.neg_apply, Pi.zero_apply, neg_eq_zero] at this
        simp [this]
      obtain ⟨i, hi⟩ := (Lmi.eigenvalue_iff e1 e3 0).1 this
      have h1 := single_le_sum (f := fun i => (1 - d i) ^ 2) (fun _ _ => sq_nonneg _) (mem_univ i)
      rw [← e4] at h1
      simp only [hi] at h1
      linarith
    obtain ⟨l, hl⟩ := (Lmi.C58_defined (sqrt := v.sqrt) (tri := v.tri) (S := -S) hW (fun r => (w.W * -S) r i₀) (m / 2)).2
      (Or.inr hcol)
    have hne : l ≠ [] := by
      intro h0
      subst h0
      unfold Lanczos.approxEigenvalues at hl
      split_ifs at hl with h1
      · subst h1
        simp at hl
      · obtain ⟨q, hq1, hq2⟩ := Option.map_eq_some_iff.1 hl
        unfold Lanczos.lanczos at hq1
        simp only at hq1
        split_ifs at hq1 with h2
        rw [Option.some.injEq] at hq1
        subst hq1
        exact (ht _ _ (by simp) (by simp)).1 hq2
    obtain ⟨q, hq⟩ := Lmi.extremes_ne_none hne
    simp only at g
    rw [hl, hq, Option.map_some] at g
    refine ⟨_, g, ?_⟩
    split_ifs <;> exact abs_nonneg _

open Hyper in
theorem hermitian_found {v : Env ℝ} (hv : ∀ x, 0 ≤ x → SolveLoop.Spec.SqrtAt v.sqrt x)
    (ht : Lmi.Spec.TriEigenvalues v.tri) {d m : Nat} {hd : NeZero d} {o : HermLmi.Con d m ℝ} {w : HermLmi.Ws d m ℝ}
    (h4 : d = 1 ∨ d = 2 ∨ d = 4) (ho : HermLmi.Spec.HermitianData o) (hW : HermLmi.Spec.PosDef w.W)
    (hst : 0 < m → v.start d m ≠ 0) (hm : 0 < m) {c : ℝ}
    {y : Nat → ℝ} {x' : Item ℝ} {n : Option ℝ} {b : ℝ}
    (hp : (Item.hermitian d m hd o w).prepareStep v c o.mats.length y = .ok (x', n, b)) (hb : b < 1) :
    ∃ n', n = some n' ∧ 0 ≤ n' := by
  obtain ⟨-, C, -, hC, -⟩ := hermitian_direction hv ht h4 ho hW hp
  obtain ⟨F, T, e, hI⟩ := hermitian_slack (hd := hd) hv ht (o := o) (w := w) rfl h4 ho hW ⟨C, hC⟩ hst c y
  obtain ⟨⟨s, g1, -⟩, -⟩ := HermLmi.C62_schur (dim_of_assoc h4) o ho w.W hW.1 C hC
    (⟨o.mats.length, fun _ _ => 0, fun _ => 0, fun _ => 0, 0, 0⟩ : Schur.Sys ℝ) le_rfl
  have hp1 : (Item.hermitian d m hd o w).prepareStep v (1 * c) o.mats.length y = .ok (x', n, b) := by rwa [one_mul]
  have hlen := hI.length 1 y x' n b _ s _ s hp1 rfl g1 rfl g1
  have hz : ∀ r : Nat → ℝ, ∑ j ∈ range o.mats.length, (y j - 1 * y j) * r j = 0 := fun r =>
    sum_eq_zero fun j _ => by ring
  rw [hz, add_zero] at hlen
  obtain ⟨a, a', ha⟩ := hI.found hm 1 (hlen ▸ hb)
  have hsl := hI.slack
  rw [ha] at hsl
  cases hq : HermLmi.prepareStep v.sqrt v.tri (v.start d m) o c 1 o.mats.length y w with
  | throws => simp [Item.prepareStep, hq] at hp
  | ub => simp [Item.prepareStep, hq] at hp
  | diverges => simp [Item.prepareStep, hq] at hp
  | ok q =>
    obtain ⟨w', n', b'⟩ := q
    simp only [Item.prepareStep, hq, Outcome.bind_ok, Outcome.ok.injEq, Prod.mk.injEq] at hp
    obtain ⟨-, rfl, rfl⟩ := hp
    obtain ⟨C', hC', -, -, hWS, g, -⟩ := HermLmi.prepareStep_inv hq
    rw [hC] at hC'
    cases hC'
    rw [hWS] at g
    simp only [itemSlack, HermLmi.slackData, HermLmi.negativeSlack_eq hC c le_rfl, Outcome.bind_ok, Outcome.ok.injEq,
      Prod.mk.injEq] at hsl
    obtain ⟨-, -, hsl⟩ := hsl
    cases hx : HermLmi.extremes v.tri (HermLmi.lanczos v.sqrt (multiply w.W (scalarMultiply
        (HermLmi.Spec.slack o.mats C c y) (-1))) w.W (v.start d m) (m / 2 + 1)) with
    | none =>
      rw [hx] at hsl
      simp at hsl
    | some q =>
      rw [hx, Option.map_some] at g
      refine ⟨_, g, ?_⟩
      split_ifs <;> exact abs_nonneg _

/-- The norm is reported for every constraint of positive order whose direction is short. -/
theorem item_found {v : Env ℝ} (hv : ∀ x, 0 ≤ x → SolveLoop.Spec.SqrtAt v.sqrt x) (hexp : v.exp = Real.exp)
    (ht : Lmi.Spec.TriEigenvalues v.tri) (hst : Starts v) {vars : List Nat} {N : Nat} {x x' : Item ℝ}
    (hg : Gap.Spec.Good ⟨vars, x⟩ N) (hu : Iteration.Spec.Usable x) (hr : 0 < x.rank)
    {c b : ℝ} {y : Nat → ℝ} {n : Option ℝ} (hp : x.prepareStep v c vars.length y = .ok (x', n, b)) (hb : b < 1) :
    ∃ n', n = some n' ∧ 0 ≤ n' := by
  have he : ∀ x, 0 < v.exp x := fun x => hexp ▸ Real.exp_pos x
  rcases kind_of hg hu with ⟨m, o, w, rfl⟩ | ⟨d, m, hd, o, w, rfl⟩ | ⟨hk, hw⟩
  · obtain ⟨-, -, h1, h2, h3⟩ := hg
    exact lmi_found hv ht h2 h3 hp hb
  · obtain ⟨-, -, h1, h2, h3, h4⟩ := hg
    simp only at h1
    rw [← h1] at hp
    exact hermitian_found hv ht h2 h3 h4 (hst d m (by omega)) hr hp hb
  · obtain ⟨x₁, n₁, β₁, h1, h2⟩ := Iteration.item_total hv he hg hu c y
    rw [hp, Outcome.ok.injEq, Prod.mk.injEq, Prod.mk.injEq] at h1
    obtain ⟨rfl, rfl, rfl⟩ := h1
    obtain ⟨x'', h2⟩ := h2 1
    obtain ⟨-, -, q, n', rfl, h3, -, -⟩ := ConeCentering.item_step hv hexp hk hw hp h2
    refine ⟨n', rfl, ?_⟩
    have hcell : 0 < ConeCentering.Spec.cells x := by
      rcases hk with ⟨o, w, rfl, hn, -⟩ | ⟨o, w, rfl, -⟩ | ⟨o, w, rfl, -⟩ | ⟨n, Q, rfl, -⟩
      · exact hn
      · exact one_pos
      · exact one_pos
      · exact absurd hr (lt_irrefl 0)
    obtain ⟨z, d, a, h4, -, h5⟩ := h3 0 hcell
    exact (ConeCentering.prepared_nonneg h4).1.trans h5

theorem rank_pos {es : List (Entry ℝ)} (h : 1 ≤ rank es) : ∃ e ∈ es, 0 < e.item.rank := by
  by_contra hcon
  push Not at hcon
  have key : ∀ (l : List (Entry ℝ)), (∀ e ∈ l, e.item.rank ≤ 0) → ∀ n, l.foldl (fun r e => r + e.item.rank) n = n := by
    intro l
    induction l with
    | nil => exact fun _ _ => rfl
    | cons e l ih =>
      intro hl n
      rw [List.foldl_cons, Nat.le_zero.1 (hl e List.mem_cons_self), add_zero]
      exact ih (fun e he => hl e (List.mem_cons_of_mem _ he)) n
  have : rank es = 0 := key es hcon 0
  omega

/-- The norm that is reported for a short direction. -/
theorem norm_le {v : Env ℝ} (hv : ∀ x, 0 ≤ x → SolveLoop.Spec.SqrtAt v.sqrt x) (hexp : v.exp = Real.exp)
    (ht : Lmi.Spec.TriEigenvalues v.tri) (hst : Starts v) {p : Iteration.Setup ℝ} {duals : List (List Nat)}
    {x x' : Iteration.State ℝ} (hr : Ready p duals x) (hn : 1 ≤ rank x.es) {k : ℝ} {st : Iteration.Step ℝ}
    (h : Iteration.iterate v p k x = .ok (some (st, x'))) (hb : st.normsqrd < 1) :
    0 ≤ st.normsqrd ∧ st.norm ^ 2 ≤ st.normsqrd := by
  obtain ⟨-, -, -, -, es', -, -, -, -, -, -, -, h3, -⟩ := Iteration.iterate_ok h
  obtain ⟨h0, -⟩ := program_direction hv hexp ht hr.good h3
  refine ⟨h0, ?_⟩
  obtain ⟨-, β, hB, hβ⟩ := prepareLoop_inv x.es h3
  rw [zero_add] at hB
  have hpos : ∀ i < x.es.length, 0 ≤ β i := fun i hi => by
    have he := List.getElem?_eq_getElem hi
    obtain ⟨x₁, n, h1, -⟩ := hβ i _ he
    exact (item_direction (vars := x.es[i].vars) hv hexp ht (hr.good _ (List.mem_of_getElem? he)) h1).1
  have hle : ∀ i < x.es.length, β i ≤ st.normsqrd := fun i hi => by
    rw [hB]
    exact single_le_sum (f := β) (fun j hj => hpos j (mem_range.1 hj)) (mem_range.2 hi)
  rcases Centering.attained x.es h3 with h1 | ⟨i, e, x₁, b, h2, h4⟩
  · exfalso
    obtain ⟨e, he, hre⟩ := rank_pos hn
    obtain ⟨i, hi⟩ := List.getElem?_of_mem he
    obtain ⟨x₁, n, h5, h6⟩ := hβ i e hi
    obtain ⟨n', rfl, h7⟩ := item_found (vars := e.vars) hv hexp ht hst (hr.good e he) (hr.usable e he) hre h5
      ((hle i (List.getElem?_eq_some_iff.1 hi).1).trans_lt hb)
    have := h6 n' rfl
    linarith
  · obtain ⟨x₂, n, h5, h6⟩ := hβ i e h2
    rw [h4, Outcome.ok.injEq, Prod.mk.injEq, Prod.mk.injEq] at h5
    obtain ⟨rfl, rfl, rfl⟩ := h5
    exact ((item_direction (vars := e.vars) hv hexp ht (hr.good e (List.mem_of_getElem? h2)) h4).2.2 _ rfl).trans
      (hle i (List.getElem?_eq_some_iff.1 h2).1)

/-! ### The loop -/

theorem item_cost {v : Env ℝ} {x x' x'' : Item ℝ} {c size b : ℝ} {ny : Nat} {y : Nat → ℝ} {n : Option ℝ}
    (hp : x.prepareStep v c ny y = .ok (x', n, b)) (ht : x'.takeStep v size = .ok x'') (hx : ∀ n Q, x ≠ .cost n Q) :
    ∀ n Q, x'' ≠ .cost n Q := by
  intro m Q h
  subst h
  cases x with
  | cost m Q => exact hx m Q rfl
  | linear o w =>
    simp only [Item.prepareStep, SolveLoop.bind_eq_ok] at hp
    obtain ⟨⟨w', g⟩, -, hp⟩ := hp
    cases g with
    | none => cases hp
    | some g =>
      simp only [Outcome.ok.injEq, Prod.mk.injEq] at hp
      rw [← hp.1] at ht
      simp [Item.takeStep] at ht
  | _ =>
    simp only [Item.prepareStep, SolveLoop.bind_eq_ok] at hp
    obtain ⟨q, -, hp⟩ := hp
    simp only [Outcome.ok.injEq, Prod.mk.injEq] at hp
    rw [← hp.1] at ht
    first
      | (simp [Item.takeStep] at ht; done)
      | (simp only [Item.takeStep, SolveLoop.bind_eq_ok, Outcome.ok.injEq, reduceCtorEq, and_false, exists_false] at ht)

theorem noCosts_next {v : Env ℝ} {p : Iteration.Setup ℝ} {k : ℝ} {x x' : Iteration.State ℝ} {st : Iteration.Step ℝ}
    (hc : NoCosts x.es) (h : Iteration.iterate v p k x = .ok (some (st, x'))) : NoCosts x'.es := by
  obtain ⟨-, -, -, -, es', -, -, -, -, -, -, -, h3, h4, -⟩ := Iteration.iterate_ok h
  obtain ⟨h1, h2⟩ := Whole.forall₂_nth (prepare_take x.es h3 h4)
  intro e he
  obtain ⟨i, hi⟩ := List.getElem?_of_mem he
  have hlt := (List.getElem?_eq_some_iff.1 hi).1
  rw [h1] at hlt
  obtain ⟨-, y, a, b, h5, h6⟩ := h2 i hlt
  have := Whole.nth_of hi
  subst this
  exact item_cost h5 h6 (hc _ (Whole.nth_mem hlt))

/-- The constraints `es₀` of a program without costs, with other scaling points. -/
def Cones (es₀ es : List (Entry ℝ)) : Prop := NoCosts es ∧ SameProg es₀ es

theorem cones_regime {v : Env ℝ} (hv : ∀ x, 0 ≤ x → SolveLoop.Spec.SqrtAt v.sqrt x) (hexp : v.exp = Real.exp)
    (ht : Lmi.Spec.TriEigenvalues v.tri) (hs : ∀ n, MatrixExp.Spec.Solves (v.solve n)) (hst : Starts v)
    (S : Search ℝ) (p : Iteration.Setup ℝ) (hbs : 0 < p.bs) (hcs : 0 < p.cs) (duals : List (List Nat)) (quadratic : Bool)
    {es₀ : List (Entry ℝ)} (hn : 1 ≤ rank es₀) :
    Regime v S p duals quadratic (Cones es₀) fun st => st.normsqrd ≤ 1 / 2 := by
  have he : ∀ x, 0 < v.exp x := fun x => hexp ▸ Real.exp_pos x
  refine ⟨fun x f solver hr hI hf hsol => ?_, fun _ h => h, fun x x' st k hr hI h hA => ?_, fun x x' st k hr hI h hA => ?_,
    fun hq x x' st k tol hr hI hk htol h => ?_, fun x x' st k hr hI h hA => ?_,
    fun x x' x'' st st' k hr hI h hr' h' hn' => ?_⟩
  · obtain ⟨t, h1, -⟩ := divergence_gap (S := S) hv hexp ht hst hr hI.1 hf hsol
    exact ⟨_, h1⟩
  · exact (ready_next hv hexp ht hs hr h (by linarith)).1
  · exact ⟨noCosts_next hI.1 h, hI.2.trans (ready_next hv hexp ht hs hr h (by linarith)).2.1⟩
  · refine stepError_le hv he hr hI.1 (fun e he' o ho => ?_) hk hbs hcs h htol
    have := hr.usable e he'
    rw [ho] at this
    exact this
  · exact norm_le hv hexp ht hst hr (hI.2.rank ▸ hn) h (by linarith)
  · exact C95_quadratic v hv hexp ht hs p duals x x' x'' hr k st st' h h' hn'

/-- The divergence makes progress. -/
theorem divergence_grows {v : Env ℝ} (hv : ∀ x, 0 ≤ x → SolveLoop.Spec.SqrtAt v.sqrt x) (hexp : v.exp = Real.exp)
    (ht : Lmi.Spec.TriEigenvalues v.tri) (hs : ∀ n, MatrixExp.Spec.Solves (v.solve n)) (hst : Starts v)
    {S : Search ℝ} (hS : 0 < S.factor) {es₀ : List (Entry ℝ)} (hn : 1 ≤ rank es₀) (hsmall : S.factor * rank es₀ ≤ 1 / 32)
    {τ : ℝ} (hτ : 0 ≤ τ) (hτS : 16 * τ ^ 2 ≤ S.factor) {cfg : SolveLoop.Config ℝ}
    (hline : cfg.lineSearch = false) (hmin : 1 / 24000 ≤ SolveLoop.kMin v.sqrt cfg) (K : ℝ) (p : Iteration.Setup ℝ)
    (duals : List (List Nat)) : Grows v S p duals cfg false (Cones es₀) (fun st => st.normsqrd ≤ 1 / 2) K τ
      (2 * (S.factor * rank es₀) ^ 2) := by
  intro x x' st k f solver a t i hr hI hk1 hk2 h0 hst' hf hsol ha hcand
  have hk : 1 / 24000 ≤ k := hmin.trans hk1
  have hkpos : 0 < k := lt_of_lt_of_le (by norm_num) hk
  have hrank := hI.2.rank
  obtain ⟨d, g1, g2, g3⟩ := divergence_grow hv hexp ht hst hr hI.1 (by rw [hrank]; exact hn) hS (by rw [hrank]; exact hsmall) hτ hτS
    hf hsol hk h0 (by rw [hrank]; exact hst')
  have ha2 : a.2 = d := by
    simp only [Whole.chosenMu, Whole.searchIf, hline, Bool.and_false, Bool.false_eq_true, if_false, Whole.divergenceIf,
      Outcome.bind_ok] at ha
    rw [if_pos (by norm_num), g1] at ha
    simp only [Outcome.bind_ok, Outcome.ok.injEq] at ha
    rw [← ha]
  have ht' : t = d := by
    unfold SolveLoop.candidate at hcand
    simp only [hline, Bool.false_eq_true, if_false, Whole.answers, ha2] at hcand
    rw [if_pos (by norm_num), Option.some.injEq] at hcand
    exact hcand.symm
  subst ht'
  refine ⟨(min_le_left _ _).trans g2, fun k' h1 h2 st₁ x₁ e1 => ?_⟩
  have hkk : k ≤ k' := (le_min (by nlinarith) hk2).trans h1
  have h3 := g3 k' hkk h2 _ _ e1
  rw [hrank] at h3
  refine ⟨by linarith, fun st₂ x₂ e2 => ?_⟩
  have h5 := C95_quadratic v hv hexp ht hs _ _ _ _ _ hr _ _ _ e1 e2 (by linarith)
  have h6 := (norm_le hv hexp ht hst hr (by rw [hrank]; exact hn) e1 (by linarith)).1
  nlinarith

/-- A solve with matrix inequalities, whose initial centering ends close to the central point. -/
theorem matrices_solve {v : Env ℝ} (ht : Lmi.Spec.TriEigenvalues v.tri) (hs : ∀ n, MatrixExp.Spec.Solves (v.solve n))
    (hst : Starts v) {l : Whole.Linear ℝ} (hl : Dense.Spec.LltContract l.llt)
    (hc : Dense.Spec.LltComplete l.llt) (hqr : l.useQr = false) {P : Program ℝ} (hP : Spec.ConeProgram P)
    (hcost : NoCosts P.es) (hquad : P.quadratic = false) (hrank : 1 ≤ rank P.es)
    {S : Search ℝ} (hS : 0 < S.factor) (hsmall : S.factor * rank P.es ≤ 1 / 32) {cfg : SolveLoop.Config ℝ} {F : Nat} {τ : ℝ}
    (hO : Opts v cfg false cfg.invSqrtMuMax F (2 * (S.factor * rank P.es) ^ 2)) (hline : cfg.lineSearch = false)
    (hlow : 1 / 24000 ≤ SolveLoop.kMin v.sqrt cfg) (hτ : 0 ≤ τ) (hτS : 16 * τ ^ 2 ≤ S.factor)
    (hthr : 1 / cfg.invSqrtMuMax ^ 2 ≤ cfg.infeasThreshold) (hpos : 0 < cfg.initCold)
    (hz : ∀ kkt, Sup.kktInit (P.es.map Entry.vars) P.duals = .ok kkt →
      Ready (scaled (setupOf l P kkt) 1 1) P.duals ⟨startEs P, P.sys, l.mat⟩ → NoCosts (startEs P) →
      ∀ (f : Iteration.Factored ℝ) (solver : Sup.Solver ℝ) (d k : ℝ),
        Iteration.factorize v (scaled (setupOf l P kkt) 1 1) ⟨startEs P, P.sys, l.mat⟩ = .ok f → f.solver = some solver →
        divergenceMu v S (scaled (setupOf l P kkt) 1 1) (startEs P) f.r solver = .ok d →
        k = nextK cfg v.sqrt cfg.invSqrtMuMax 0 d true → SolveLoop.kMin v.sqrt cfg ≤ k → k ≤ cfg.invSqrtMuMax →
        ∃ (X : Nat → Iteration.State ℝ) (ST : Nat → Iteration.Step ℝ), X 0 = ⟨startEs P, P.sys, l.mat⟩ ∧
          (∀ l', Iteration.iterate v (scaled (setupOf l P kkt) 1 1) k (X l') = .ok (some (ST l', X (l' + 1)))) ∧
          (∀ l', (ST l').normsqrd ≤ 1 / 2 ∨ k < cfg.invSqrtMuMax ∧
            Ready (scaled (setupOf l P kkt) 1 1) P.duals (X (l' + 1)) ∧ Cones (startEs P) (X (l' + 1)).es) ∧
          (ST cfg.initCold.toNat).normsqrd ≤ 2 * (S.factor * rank P.es) ^ 2)
    {J : Nat} (hJ : cfg.invSqrtMuMax ≤ (1 + τ) ^ J * SolveLoop.kMin v.sqrt cfg)
    (hiter : cfg.initCold + J ≤ cfg.maxIter - cfg.finalSteps) (status : SolveLoop.Status) :
    ∃ r z, Whole.solveSearch v l S P cfg status = .ok r ∧ r.res.ret = true ∧
      r.res.final = some (cfg.invSqrtMuMax, cfg.invSqrtMuMax) ∧ r.array = some z ∧ Gap.Spec.Feasible P.es z ∧
      ∀ z', Gap.Spec.Feasible P.es z' → value P z ≤ value P z' + rank P.es / cfg.invSqrtMuMax ^ 2 := by
  have he := hO.expPos
  obtain ⟨hv, hexp, hmode, hch, hplain, hkkt, hmin, hmax, htol, hfine, hle, hF⟩ := id hO
  have hK : 0 < cfg.invSqrtMuMax := hmin.trans_le hmax
  obtain ⟨hN, kkt, hk, hr⟩ := start_ready hP hl hc hqr
  have hB0 : 0 < S.factor * (rank P.es : ℝ) := mul_pos hS (by
    have : (1 : ℝ) ≤ rank P.es := by exact_mod_cast hrank
    linarith)
  have hrs : rank (startEs P) = rank P.es := rank_start P
  have hcs : NoCosts (startEs P) := by
    intro e he' n Q hx
    obtain ⟨e', he'', rfl⟩ := List.mem_map.1 he'
    have := hcost e' he''
    cases hi : e'.item <;> rw [hi] at this <;> simp only [hi, Whole.setIdentity] at hx <;>
      first | exact this _ _ rfl | cases hx
  set setup : Iteration.Setup ℝ := ⟨P.N, P.b, 1, 1, kkt, l.useQr, l.refine, l.llt, l.qr⟩ with hsetup
  set stats : SolveLoop.Stats ℝ := ⟨cfg.maxIter, none, some 1, some 1, []⟩ with hstats
  set x₀ : Iteration.State ℝ := ⟨startEs P, P.sys, l.mat⟩ with hx₀
  set q : State ℝ := ⟨SolveLoop.start cfg stats, x₀, none⟩ with hq₀
  have hbase : Base setup P.duals cfg (Cones (startEs P)) cfg.invSqrtMuMax q :=
    ⟨ready_scaled hr 1 1, ⟨hcs, SameProg.refl _⟩, rfl, rfl, rfl, rfl, hkkt, rfl⟩
  have hR := cones_regime hv hexp ht hs hst S (scaled setup 1 1) one_pos one_pos P.duals false (es₀ := startEs P)
    (by rw [hrs]; exact hrank)
  have hG := divergence_grows hv hexp ht hs hst hS (es₀ := startEs P) (by rw [hrs]; exact hrank) (by rw [hrs]; exact hsmall) hτ hτS
    hline hlow cfg.invSqrtMuMax setup P.duals
  rw [hrs] at hG
  obtain ⟨q', st, m, g1, g2, g3, g4, g5, g6, g7, g8, g9, g10, g11, x, g12, g13, g14, g15⟩ := loop_succeeds hO hR hτ hG hJ hiter hbase rfl
    rfl hpos fun f solver a t k hf hsol ha hcand hkt hk1 hk2 => by
      have hd : ∃ d, divergenceMu v S (scaled setup 1 1) (startEs P) f.r solver = .ok d :=
        hR.defined _ _ _ hbase.ready hbase.regime hf hsol
      obtain ⟨d, e1⟩ := hd
      have ha2 : a.2 = d := by
        simp only [Whole.chosenMu, Whole.searchIf, hline, Bool.and_false, Bool.false_eq_true, if_false, Whole.divergenceIf,
          Outcome.bind_ok] at ha
        rw [if_pos (by norm_num), e1] at ha
        simp only [Outcome.bind_ok, Outcome.ok.injEq] at ha
        rw [← ha]
      have ht' : t = d := by
        unfold SolveLoop.candidate at hcand
        simp only [hline, Bool.false_eq_true, if_false, Whole.answers, ha2] at hcand
        rw [if_pos (by norm_num), Option.some.injEq] at hcand
        exact hcand.symm
      subst ht'
      exact hz kkt hk (ready_scaled hr 1 1) hcs f solver t k hf hsol e1 hkt hk1 hk2
  -- the result
  have hne : P.es.length ≠ 0 := by
    obtain ⟨e₀, h0, -⟩ := hP.first
    intro h
    rw [List.length_eq_zero_iff.1 h] at h0
    cases h0
  have hinitp : (SolveLoop.initProgram (SolveLoop.clearStatus ⟨P.quadratic, P.es.length, false, none, status⟩) cfg).stats =
      some stats := by
    unfold SolveLoop.initProgram
    rw [if_pos (Or.inr hmode)]
    simp only [hmode, if_true, hstats]
  have hstart : (if cfg.mode = 0 then identity P.es else P.es) = startEs P := by rw [if_pos hmode]; rfl
  have hwarm : ¬ ((SolveLoop.clearStatus (⟨P.quadratic, P.es.length, false, none, status⟩ : SolveLoop.Prog ℝ)).initialized =
      false ∧ cfg.mode ≠ 0) := fun h => h.2 hmode
  have hover : SolveLoop.overThreshold cfg q'.s.k = false := by
    unfold SolveLoop.overThreshold
    rw [g3, decide_eq_false hK.ne', decide_eq_false]
    · rfl
    · rw [not_lt]
      refine le_trans (le_of_eq ?_) hthr
      rw [one_div_mul_one_div, sq]
  obtain ⟨res, e1, e2, e3, e4⟩ : ∃ res, SolveLoop.post cfg (SolveLoop.initProgram (SolveLoop.clearStatus
      ⟨P.quadratic, P.es.length, false, none, status⟩) cfg) q'.s = .ok res ∧ res.ret = true ∧
      res.final = some (cfg.invSqrtMuMax, cfg.invSqrtMuMax) ∧ res.out = .scaled q'.s.y cfg.invSqrtMuMax 1 := by
    refine ⟨_, by
      simp only [SolveLoop.post, SolveLoop.output, hover, g7, g9, SolveLoop.readVar, Outcome.bind_ok, Bool.false_eq_true,
        if_false]
      rfl, ?_, ?_, ?_⟩
    · simp [g2]
    · simp [g3, g4]
    · simp [g3]
  obtain ⟨es, hes⟩ := after_ok hv he (p := setup) g8 (ready_scaled g11 1 1) cfg
  have hsolve : Whole.solveSearch v l S P cfg status = .ok ⟨res, array res.out q'.last, q'.last, some es⟩ := by
    unfold Whole.solveSearch Whole.solveSearchAt
    simp only
    rw [if_neg (not_not.2 (Or.inl hquad)), if_neg hne, if_neg hwarm, hk]
    simp only [Outcome.bind_ok, hinitp, hstart]
    rw [← hsetup, ← hx₀, ← hq₀, hquad, g1]
    simp only [Outcome.bind_ok]
    rw [hquad] at e1
    rw [e1]
    simp only [Outcome.bind_ok, hes]
  refine ⟨_, _, hsolve, e2, e3, by rw [e4, g5]; rfl, ?_⟩
  obtain ⟨-, -, -, -, es', -, -, -, -, -, -, -, h3, -⟩ := Iteration.iterate_ok g15
  have hsep : Gap.Spec.Separate x.es (scaled setup 1 1).b := by
    intro i e o h7 h8
    have := g12.usable e (List.mem_of_getElem? h7)
    rw [h8] at this
    exact this.elim
  obtain ⟨h7, h8⟩ := C95_gap v hv hexp ht _ st.y (scaled setup 1 1).b cfg.invSqrtMuMax 1 1 hK one_pos one_pos x.es g12.good hsep
    (system g12 g15 (Centering.unregularized hv he g12 g15)) es' _ _ h3 (by linarith)
  have hzz : (fun u => st.y u / cfg.invSqrtMuMax / 1) = fun u => st.y u / (cfg.invSqrtMuMax * 1) := by
    funext u
    rw [div_div]
  rw [hzz]
  refine ⟨(feasible_start P _).1 ((g13.2.feasible _).1 h7), fun z' hz' => ?_⟩
  have := h8 z' ((g13.2.feasible _).2 ((feasible_start P _).2 hz'))
  rw [g13.2.objective, g13.2.objective, g13.2.rank, hrs] at this
  have o1 : ∀ z, Gap.Spec.objective P.N P.b (1 / 1) (startEs P) z = -value P z := fun z =>
    objective_start hN (Or.inl (by norm_num)) z
  have this' : Gap.Spec.objective P.N P.b (1 / 1) (startEs P) z' ≤ Gap.Spec.objective P.N P.b (1 / 1) (startEs P)
      (fun u => st.y u / (cfg.invSqrtMuMax * 1)) + (rank P.es - st.normsqrd) / (cfg.invSqrtMuMax ^ 2 * 1 * 1) := this
  rw [o1, o1] at this'
  simp only [mul_one] at this' ⊢
  have hd : (rank P.es - st.normsqrd) / cfg.invSqrtMuMax ^ 2 ≤ (rank P.es : ℝ) / cfg.invSqrtMuMax ^ 2 :=
    div_le_div_of_nonneg_right (by linarith) (by positivity)
  linarith

/-- A solve with matrix inequalities, whose start is close to the central point of some barrier parameter. -/
theorem matrices_converge {v : Env ℝ} (ht : Lmi.Spec.TriEigenvalues v.tri) (hs : ∀ n, MatrixExp.Spec.Solves (v.solve n))
    (hst : Starts v) {l : Whole.Linear ℝ} (hl : Dense.Spec.LltContract l.llt)
    (hc : Dense.Spec.LltComplete l.llt) (hqr : l.useQr = false) {P : Program ℝ} (hP : Spec.ConeProgram P)
    (hcost : NoCosts P.es) (hquad : P.quadratic = false) (hrank : 1 ≤ rank P.es)
    {S : Search ℝ} (hS : 0 < S.factor) (hsmall : S.factor * rank P.es ≤ 1 / 32) {cfg : SolveLoop.Config ℝ} {F : Nat} {τ k₀ : ℝ}
    (hO : Opts v cfg false cfg.invSqrtMuMax F (2 * (S.factor * rank P.es) ^ 2)) (hline : cfg.lineSearch = false)
    (hlow : 1 / 24000 ≤ SolveLoop.kMin v.sqrt cfg) (hτ : 0 ≤ τ) (hτS : 16 * τ ^ 2 ≤ S.factor)
    (hthr : 1 / cfg.invSqrtMuMax ^ 2 ≤ cfg.infeasThreshold) (hpos : 0 < cfg.initCold)
    (hk₀ : SolveLoop.kMin v.sqrt cfg ≤ k₀) (hk₀' : k₀ ≤ cfg.invSqrtMuMax)
    (hfirst : ∀ kkt st x', Sup.kktInit (P.es.map Entry.vars) P.duals = .ok kkt →
      Iteration.iterate v (setupOf l P kkt) k₀ ⟨startEs P, P.sys, l.mat⟩ = .ok (some (st, x')) →
      st.normsqrd ≤ 2 * (S.factor * rank P.es) ^ 2)
    {J : Nat} (hJ : cfg.invSqrtMuMax ≤ (1 + τ) ^ J * SolveLoop.kMin v.sqrt cfg)
    (hiter : cfg.initCold + J ≤ cfg.maxIter - cfg.finalSteps) (status : SolveLoop.Status) :
    ∃ r z, Whole.solveSearch v l S P cfg status = .ok r ∧ r.res.ret = true ∧
      r.res.final = some (cfg.invSqrtMuMax, cfg.invSqrtMuMax) ∧ r.array = some z ∧ Gap.Spec.Feasible P.es z ∧
      ∀ z', Gap.Spec.Feasible P.es z' → value P z ≤ value P z' + rank P.es / cfg.invSqrtMuMax ^ 2 := by
  have he := hO.expPos
  obtain ⟨hv, hexp, hmode, hch, hplain, hkkt, hmin, hmax, htol, hfine, hle, hF⟩ := id hO
  have hk0 : 0 < k₀ := hmin.trans_le hk₀
  have hB0 : 0 < S.factor * (rank P.es : ℝ) := mul_pos hS (by
    have : (1 : ℝ) ≤ rank P.es := by exact_mod_cast hrank
    linarith)
  have hrs : rank (startEs P) = rank P.es := rank_start P
  refine matrices_solve ht hs hst hl hc hqr hP hcost hquad hrank hS hsmall hO hline hlow hτ hτS hthr hpos
    (fun kkt hk hr hcs f solver d k hf hsol hd hkt hk1 hk2 => ?_) hJ hiter status
  obtain ⟨st₀, x₁, h0, -⟩ := Iteration.iterate_total hv he hr k₀
  have h0' := hfirst kkt st₀ x₁ hk h0
  obtain ⟨d', e1, e2, e3⟩ := divergence_grow (S := S) (τ := τ) hv hexp ht hst hr hcs (by rw [hrs]; exact hrank)
    hS (by rw [hrs]; exact hsmall) hτ hτS hf hsol (hlow.trans hk₀) h0 (by rw [hrs]; exact h0')
  rw [e1, Outcome.ok.injEq] at hd
  subst hd
  have hkd : k₀ ≤ d' := le_trans (by nlinarith) e2
  have hkk : k₀ ≤ k ∧ k ≤ d' := by
    rw [hkt, nextK, if_pos rfl, if_pos (hk0.trans_le hkd)]
    unfold SolveLoop.applyLimits
    simp only
    rcases lt_or_ge cfg.invSqrtMuMax d' with h9 | h9
    · rw [if_pos h9, if_neg (not_lt.2 hmax)]
      exact ⟨hk₀', h9.le⟩
    · rw [if_neg (not_lt.2 h9), if_neg (not_lt.2 (hk₀.trans hkd))]
      exact ⟨hkd, le_rfl⟩
  obtain ⟨st₁, x₂, h1, -⟩ := Iteration.iterate_total hv he hr k
  have h2 := e3 k hkk.1 hkk.2 st₁ x₂ h1
  rw [show rank (startEs P) = rank P.es from hrs] at h2
  obtain ⟨X, ST, f1, f2, f3⟩ := C95_local v hv hexp ht hs (scaled (setupOf l P kkt) 1 1) one_pos one_pos P.duals ⟨startEs P, P.sys, l.mat⟩ x₂
    hr k (hk0.trans_le hkk.1) st₁ h1 (by linarith)
  have hquart : ∀ l, (ST l).normsqrd ≤ 1 / 4 := fun l => by
    have h5 : (1 / 2 : ℝ) ^ 2 ^ l ≤ (1 / 2) ^ 1 := pow_le_pow_of_le_one (by norm_num) (by norm_num) Nat.one_le_two_pow
    have := (f3 l).2.2.2.1
    linarith
  have hready : ∀ j, Ready (scaled (setupOf l P kkt) 1 1) P.duals (X j) := fun j => by
    induction j with
    | zero =>
      rw [f1]
      exact hr
    | succ j ih => exact (ready_next hv hexp ht hs ih (f3 j).1 ((hquart j).trans (by norm_num))).1
  have hstep : ∀ l, (ST (l + 1)).normsqrd ≤ 2 * (ST l).normsqrd ^ 2 := fun l =>
    C95_quadratic v hv hexp ht hs _ _ _ _ _ (hready l) k _ _ (f3 l).1 (f3 (l + 1)).1 ((hquart l).trans (by norm_num))
  have hfin : ∀ l, (ST (l + 1)).normsqrd ≤ 2 * (S.factor * rank P.es) ^ 2 := by
    intro l
    induction l with
    | zero =>
      refine (hstep 0).trans ?_
      have h5 := (f3 0).2.2.1
      rw [f2] at h5 ⊢
      have := pow_le_pow_left₀ h5 h2 2
      linarith
    | succ l ih =>
      have h5 := (f3 (l + 1)).2.2.1
      have h6 := hquart (l + 1)
      have h7 := hstep (l + 1)
      nlinarith
  refine ⟨X, ST, f1, fun l => (f3 l).1, fun l => Or.inl ((hquart l).trans (by norm_num)), ?_⟩
  obtain ⟨j, hj⟩ : ∃ j, cfg.initCold.toNat = j + 1 := ⟨cfg.initCold.toNat - 1, by omega⟩
  rw [hj]
  exact hfin j

end Verif.MatrixCentering
