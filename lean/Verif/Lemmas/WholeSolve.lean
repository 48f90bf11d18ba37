import Verif.Spec.WholeSolve
import Verif.Props.Iteration

/-!
# Lemmas for C75
-/

namespace Verif.Whole

open Finset Dual Iteration.Spec Spec

/-! ### The start -/

theorem data_good {e : Entry ℝ} {N : Nat} (h : Data e N) : Gap.Spec.Good ⟨e.vars, setIdentity e.item⟩ N := by
  obtain ⟨h1, h2, h3⟩ := h
  refine ⟨h1, h2, ?_⟩
  obtain ⟨vars, x⟩ := e
  cases x with
  | linear o w => exact ⟨h3.1, fun _ _ => one_pos⟩
  | soc o w => exact ⟨h3.1, h3.2, one_pos, by simp [Soc.setIdentity, Soc.dot]⟩
  | quad o w =>
    refine ⟨h3.1, h3.2.1, h3.2.2, one_pos, ?_⟩
    have := h3.2.2.smul 0 (fun _ => 0) fun _ => 0
    simp only [zero_mul] at this
    simp only [QuadCone.setIdentity, this]
    norm_num
  | cost n Q => exact h3
  | lmi => exact h3.elim
  | hermitian => exact h3.elim
  | octonion => exact h3.elim
  | equality => exact h3.elim

theorem data_usable {e : Entry ℝ} {N : Nat} (h : Data e N) : Usable (setIdentity e.item) ∧
    ¬ MatrixCone (setIdentity e.item) ∧ ∀ z, Insensitive z (setIdentity e.item) ↔ Insensitive z e.item := by
  obtain ⟨-, -, h3⟩ := h
  obtain ⟨vars, x⟩ := e
  cases x with
  | linear o w => exact ⟨h3.2, id, fun _ => Iff.rfl⟩
  | soc o w => exact ⟨trivial, id, fun _ => Iff.rfl⟩
  | quad o w => exact ⟨trivial, id, fun _ => Iff.rfl⟩
  | cost n Q => exact ⟨trivial, id, fun _ => Iff.rfl⟩
  | lmi => exact h3.elim
  | hermitian => exact h3.elim
  | octonion => exact h3.elim
  | equality => exact h3.elim

/-- The constraints at the start. -/
noncomputable def startEs (P : Program ℝ) : List (Entry ℝ) := identity P.es

theorem startEs_vars (P : Program ℝ) : (startEs P).map Entry.vars = P.es.map Entry.vars := by
  simp [startEs, identity, Function.comp_def]

theorem sum_lengths {L : List (List Nat)} (h : ∀ d ∈ L, d = []) : (L.map List.length).sum = 0 := by
  induction L with
  | nil => rfl
  | cons a L ih =>
    simp only [List.map_cons, List.sum_cons, ih fun d hd => h d (List.mem_cons_of_mem _ hd), h a List.mem_cons_self,
      List.length_nil]

/-- The solver can be constructed, and the first iteration starts well. -/
theorem start_ready_of {P : Program ℝ} (hdata : ∀ e ∈ P.es, Gap.Spec.Good ⟨e.vars, setIdentity e.item⟩ P.m ∧
      Usable (setIdentity e.item) ∧ ∀ z, Insensitive z (setIdentity e.item) ↔ Insensitive z e.item)
    (hfirst : ∃ e, P.es[0]? = some e ∧ e.vars ≠ []) (hlen : P.duals.length = P.es.length)
    (hno : ∀ d ∈ P.duals, d = []) (hsized : Sized P.es P.sys) (hoccurs : ∀ u < P.m, ∃ e ∈ P.es, u ∈ e.vars)
    (hshift : ∀ k, Sup.kktInit (P.es.map Entry.vars) P.duals = .ok k → Sup.Spec.NoShift k)
    (hdet : Determined P.m P.es) {l : Linear ℝ} (hl : Dense.Spec.LltContract l.llt)
    (hc : Dense.Spec.LltComplete l.llt) (hq : l.useQr = false) :
    P.N = P.m ∧ ∃ kkt, Sup.kktInit (P.es.map Entry.vars) P.duals = .ok kkt ∧
      Ready ⟨P.N, P.b, 1, 1, kkt, l.useQr, l.refine, l.llt, l.qr⟩ P.duals ⟨startEs P, P.sys, l.mat⟩ := by
  have hN : P.N = P.m := by
    unfold Program.N
    rw [sum_lengths hno, Nat.add_zero]
  have hnd : ∀ c ∈ P.es.map Entry.vars, c.Nodup := by
    intro c hc
    obtain ⟨e, he, rfl⟩ := List.mem_map.1 hc
    exact (hdata e he).1.1
  obtain ⟨e₀, h0, hne⟩ := hfirst
  have h0' : (P.es.map Entry.vars)[0]? = some e₀.vars := by rw [List.getElem?_map, h0]; rfl
  obtain ⟨hq0, hlt⟩ := Clique.cliqueAt_of_getElem? h0'
  obtain ⟨r, hr, hrl⟩ := Sup.getRootNode_ok (vars := P.es.map Entry.vars) (duals := P.duals)
    (by simp [hlen]) (by rintro e; simp [e] at hlt)
  obtain ⟨d, hd⟩ := Sup.getData_ok hnd (some (Sup.isEmptyVec P.duals)) (root := r)
    (by exact_mod_cast hrl) (by rw [hq0]; exact hne)
  obtain ⟨kkt, hk⟩ : ∃ kkt, Sup.kktInit (P.es.map Entry.vars) P.duals = .ok kkt :=
    ⟨_, by simp only [Sup.kktInit, hr, Outcome.bind, hd]; rfl⟩
  have hmem : ∀ e' ∈ startEs P, ∃ e ∈ P.es, e' = ⟨e.vars, setIdentity e.item⟩ := by
    intro e' he'
    obtain ⟨e, he, rfl⟩ := List.mem_map.1 he'
    exact ⟨e, he, rfl⟩
  refine ⟨hN, kkt, hk, ⟨⟨by rw [startEs_vars]; exact hk, hl, hq, by simp [startEs, identity, hlen], ?_, hshift kkt hk, ?_⟩,
    hc, hno, ?_, ?_, ?_, ?_⟩⟩
  · intro i c dv _ h
    rw [hno dv (List.mem_of_getElem? h)]
    exact ⟨c, by simp⟩
  · intro u
    rw [startEs_vars]
    constructor
    · intro hu
      obtain ⟨e, he, hv⟩ := hoccurs u (hN ▸ hu)
      exact ⟨_, List.mem_map_of_mem he, hv⟩
    · rintro ⟨c, hc, hv⟩
      obtain ⟨e, he, rfl⟩ := List.mem_map.1 hc
      exact hN ▸ (hdata e he).1.2.1 u hv
  · intro e' he'
    obtain ⟨e, he, rfl⟩ := hmem e' he'
    rw [hN]
    exact (hdata e he).1
  · intro e' he'
    obtain ⟨e, he, rfl⟩ := hmem e' he'
    exact (hdata e he).2.1
  · have := hsized
    unfold Sized at this ⊢
    rw [this]
    simp [startEs, identity, Function.comp_def]
  · intro z hz
    rw [hN] at hz
    obtain ⟨e, he, hne⟩ := hdet z hz
    exact ⟨_, List.mem_map_of_mem he, fun h => hne (((hdata e he).2.2 _).1 h)⟩

theorem start_ready {P : Program ℝ} (hP : VectorProgram P) {l : Linear ℝ} (hl : Dense.Spec.LltContract l.llt)
    (hc : Dense.Spec.LltComplete l.llt) (hq : l.useQr = false) :
    P.N = P.m ∧ ∃ kkt, Sup.kktInit (P.es.map Entry.vars) P.duals = .ok kkt ∧
      Ready ⟨P.N, P.b, 1, 1, kkt, l.useQr, l.refine, l.llt, l.qr⟩ P.duals ⟨startEs P, P.sys, l.mat⟩ ∧
      ∀ e ∈ startEs P, ¬ MatrixCone e.item := by
  obtain ⟨h1, kkt, h2, h3⟩ := start_ready_of (fun e he => ⟨data_good (hP.data e he), (data_usable (hP.data e he)).1,
    (data_usable (hP.data e he)).2.2⟩) hP.first hP.length hP.noDuals hP.sized hP.occurs hP.noShift hP.determined hl hc hq
  refine ⟨h1, kkt, h2, h3, fun e' he' => ?_⟩
  obtain ⟨e, he, rfl⟩ := List.mem_map.1 he'
  exact (data_usable (hP.data e he)).2.1

/-! ### The loop -/

/-- The setup with other scalings. -/
def scaled (p : Iteration.Setup ℝ) (bs cs : ℝ) : Iteration.Setup ℝ := { p with bs := bs, cs := cs }

theorem ready_scaled {p : Iteration.Setup ℝ} {duals : List (List Nat)} {x : Iteration.State ℝ} (h : Ready p duals x)
    (bs cs : ℝ) : Ready (scaled p bs cs) duals x :=
  ⟨⟨h.built.kkt, h.built.llt, h.built.mode, h.built.length, h.built.last, h.built.noShift, h.built.occurs⟩,
    h.complete, h.noDuals, h.good, h.usable, h.sized, h.determined⟩

theorem iterate_split {v : Env ℝ} {p : Iteration.Setup ℝ} {k : ℝ} {x : Iteration.State ℝ}
    {q : Iteration.Step ℝ × Iteration.State ℝ} (h : Iteration.iterate v p k x = .ok (some q)) :
    ∃ f solver, Iteration.factorize v p x = .ok f ∧ f.solver = some solver ∧
      Iteration.advance v p k x f.sys f.r solver = .ok q := by
  unfold Iteration.iterate at h
  simp only [SolveLoop.bind_eq_ok] at h
  obtain ⟨f, h1, h2⟩ := h
  cases hs : f.solver with
  | none => rw [hs] at h2; cases h2
  | some solver =>
    rw [hs] at h2
    simp only [SolveLoop.bind_eq_ok] at h2
    obtain ⟨q', h3, h4⟩ := h2
    simp only [Outcome.ok.injEq, Option.some.injEq] at h4
    subst h4
    exact ⟨f, solver, h1, hs, h3⟩

/-- What holds before iteration `i`: the iterations so far, with scalings `bs` and `cs`. -/
structure Inv (v : Env ℝ) (p : Iteration.Setup ℝ) (duals : List (List Nat)) (cfg : SolveLoop.Config ℝ)
    (x₀ : Iteration.State ℝ) (i : Nat) (q : State ℝ) (bs cs : ℝ) (k : Nat → ℝ) (X : Nat → Iteration.State ℝ)
    (ST : Nat → Iteration.Step ℝ) : Prop where
  bpos : 0 < bs
  cpos : 0 < cs
  zero : X 0 = x₀
  now : X i = q.x
  steps : ∀ l < i, Iteration.iterate v (scaled p bs cs) (k l) (X l) = .ok (some (ST l, X (l + 1)))
  regular : ∀ l < i, Unregularized (ST l)
  bScale : q.s.stats.bScale = some (if i = 0 then 1 else bs)
  cScale : q.s.stats.cScale = some (if i = 0 then 1 else cs)
  cap : q.s.stats.cap = cfg.maxIter
  nonneg : 0 ≤ q.s.k
  plain : cfg.rescaling = false → bs = 1 ∧ cs = 1
  last : ∀ j, i = j + 1 → q.s.y = some j ∧ q.s.k = k j ∧ q.last = some (ST j) ∧ q.s.stats.numIter = some i
  mu : ∀ j, i = j + 1 → q.s.stats.sqrtInvMu.lookup j = some q.s.k

theorem norm_nonneg {sqrt : ℝ → ℝ} (hv : ∀ x, 0 ≤ x → SolveLoop.Spec.SqrtAt sqrt x) (n : Nat) (x : Nat → ℝ) :
    0 ≤ norm sqrt n x := (hv _ (sum_nonneg fun u _ => mul_self_nonneg (x u))).1

/-- Rescaling. -/
theorem rescale_ok {sqrt : ℝ → ℝ} {cfg : SolveLoop.Config ℝ} (hmode : cfg.mode = 0) (o : SolveLoop.Oracle ℝ)
    (hb : 0 ≤ o.bNorm) (hc : 0 ≤ o.aqcNorm) (i : Nat) (s : SolveLoop.State ℝ) {b₀ c₀ : ℝ}
    (hb₀ : s.stats.bScale = some b₀) (hc₀ : s.stats.cScale = some c₀) (h0 : 0 < b₀) (h1 : 0 < c₀) :
    ∃ s' bs cs, SolveLoop.rescale sqrt cfg o i s = .ok s' ∧ s'.stats.bScale = some bs ∧ s'.stats.cScale = some cs ∧
      0 < bs ∧ 0 < cs ∧ (i ≠ 0 ∨ cfg.rescaling = false → s' = s) ∧ s'.k = s.k ∧ s'.stats.cap = s.stats.cap := by
  unfold SolveLoop.rescale
  by_cases h : i < 1 ∧ cfg.rescaling = true
  · rw [if_pos h]
    simp only [hmode, if_true, SolveLoop.readVar, Outcome.bind_ok]
    refine ⟨_, _, _, rfl, rfl, rfl, by positivity, by positivity, ?_, rfl, rfl⟩
    rintro (h' | h')
    · exact absurd h.1 (by omega)
    · rw [h.2] at h'
      cases h'
  · rw [if_neg h]
    exact ⟨s, b₀, c₀, rfl, hb₀, hc₀, h0, h1, fun _ => rfl, rfl, rfl⟩

/-- A barrier parameter is found. -/
theorem chooseMu_ok {cfg : SolveLoop.Config ℝ} {quadratic : Bool} (c : SolveLoop.Oracle ℝ)
    (hq : quadratic = false ∨ cfg.lineSearch = true) (i : Nat) (upd : Bool) (s : SolveLoop.State ℝ)
    (hk : 0 ≤ s.k) :
    ∃ s', SolveLoop.chooseMu cfg quadratic c i upd s = some s' ∧ s'.stats = s.stats ∧ s'.kMax = s.kMax := by
  unfold SolveLoop.chooseMu
  by_cases hu : upd = true
  · rw [if_pos hu]
    have : ∃ t, SolveLoop.candidate cfg quadratic c i s.k = some t := by
      unfold SolveLoop.candidate
      rcases hq with hq | hq
      · simp only [hq, Bool.false_eq_true, if_false]
        split_ifs <;> exact ⟨_, rfl⟩
      · simp only [hq, if_true]
        split_ifs <;> first | exact ⟨_, rfl⟩ | linarith
    obtain ⟨t, ht⟩ := this
    rw [ht]
    simp only [Option.map_some]
    split_ifs <;> exact ⟨_, rfl, rfl, rfl⟩
  · rw [if_neg hu]
    split_ifs <;> exact ⟨_, rfl, rfl, rfl⟩

/-- The end of the loop body. -/
theorem finish_ok {sqrt : ℝ → ℝ} {cfg : SolveLoop.Config ℝ} (quadratic : Bool)
    (o : SolveLoop.Oracle ℝ) (i : Nat) (fc upd : Bool) (s : SolveLoop.State ℝ) {bs cs : ℝ}
    (hb : s.stats.bScale = some bs) (hc : s.stats.cScale = some cs) (hi : (i : Int) < s.stats.cap) :
    ∃ d s', SolveLoop.finish sqrt cfg quadratic o i fc upd s = .ok (d, s') ∧ (d = .next ∨ d = .brk) ∧
      s'.stats.bScale = some bs ∧ s'.stats.cScale = some cs ∧ s'.stats.cap = s.stats.cap ∧
      s'.k = SolveLoop.applyLimits s.k (SolveLoop.kMin sqrt cfg) s.kMax ∧ s'.y = some i ∧
      s'.stats.numIter = some (i + 1) ∧ s'.stats.sqrtInvMu.lookup i = some s'.k ∧
      (d = .brk → |o.norm i| ≤ cfg.finalTol) := by
  unfold SolveLoop.finish
  simp only [hb, hc, SolveLoop.readVar, Outcome.bind_ok]
  rw [if_neg (by omega)]
  by_cases h : (fc || decide (s.kMax ≤ SolveLoop.applyLimits s.k (SolveLoop.kMin sqrt cfg) s.kMax)) = true ∧
      |o.norm i| ≤ cfg.finalTol
  · rw [if_pos h]
    exact ⟨_, _, rfl, Or.inr rfl, rfl, rfl, rfl, rfl, rfl, rfl, List.lookup_cons_self, fun _ => h.2⟩
  · rw [if_neg h]
    exact ⟨_, _, rfl, Or.inl rfl, rfl, rfl, rfl, rfl, rfl, rfl, List.lookup_cons_self, fun h => by cases h⟩

/-- One pass of the loop. -/
theorem body_ok {v : Env ℝ} (hv : ∀ x, 0 ≤ x → SolveLoop.Spec.SqrtAt v.sqrt x) (he : ∀ x, 0 < v.exp x)
    {p : Iteration.Setup ℝ} {duals : List (List Nat)} {cfg : SolveLoop.Config ℝ} (hmode : cfg.mode = 0)
    (hmu : 0 ≤ 1 / 10 ^ 15 + cfg.maximumMu) (hsteps : 0 < cfg.finalSteps)
    {quadratic : Bool} (hq : quadratic = false ∨ cfg.lineSearch = true) (c : SolveLoop.Oracle ℝ)
    {x₀ : Iteration.State ℝ} {i : Nat} {q : State ℝ} {bs cs : ℝ} {k : Nat → ℝ} {X : Nat → Iteration.State ℝ}
    {ST : Nat → Iteration.Step ℝ} (h : Inv v p duals cfg x₀ i q bs cs k X ST) (hr : Ready p duals q.x)
    (hi : (i : Int) < cfg.maxIter) (hc0 : i = 0 → q.s.centering = 0) :
    ∃ d q', body v p cfg quadratic c i q = .ok (d, q') ∧
      ((d = .brk ∧ 0 < i ∧ Inv v p duals cfg x₀ i q' bs cs k X ST) ∨
       ((d = .brk ∨ d = .next) ∧ ∃ bs' cs' k' X' ST', Inv v p duals cfg x₀ (i + 1) q' bs' cs' k' X' ST')) := by
  have hk0 : 0 ≤ SolveLoop.kMin v.sqrt cfg := (hv _ (one_div_nonneg.2 hmu)).1
  unfold body
  simp only
  by_cases hex : SolveLoop.finalCentering cfg i q.s = true ∧ cfg.finalSteps ≤ q.s.centering
  · rw [if_pos hex]
    refine ⟨_, _, rfl, Or.inl ⟨rfl, ?_, ⟨h.bpos, h.cpos, h.zero, h.now, h.steps, h.regular, h.bScale, h.cScale, h.cap,
      h.nonneg, h.plain, h.last, h.mu⟩⟩⟩
    by_contra h0
    have := hc0 (by omega)
    have := hex.2
    omega
  · rw [if_neg hex]
    obtain ⟨st₁, x₁, h1, -⟩ := Iteration.iterate_total hv he hr 0
    obtain ⟨f, solver, hf, hsol, -⟩ := iterate_split h1
    obtain ⟨s₁, bs₁, cs₁, hs₁, hb₁, hc₁, hbp, hcp, hsame, hk₁, hcap₁⟩ := rescale_ok (sqrt := v.sqrt) hmode
      { c with bNorm := norm v.sqrt p.N p.b, aqcNorm := norm v.sqrt p.N f.r.AQc } (norm_nonneg hv _ _)
      (norm_nonneg hv _ _) i { q.s with aborted := false } h.bScale h.cScale
      (by split_ifs; exacts [one_pos, h.bpos]) (by split_ifs; exacts [one_pos, h.cpos])
    obtain ⟨s₂, hs₂, hst₂, hkm₂⟩ := chooseMu_ok c hq i (SolveLoop.updateMu cfg i q.s)
      { s₁ with trace := .factor i true :: s₁.trace } (by simpa [hk₁] using h.nonneg)
    set K := SolveLoop.applyLimits s₂.k (SolveLoop.kMin v.sqrt cfg) s₂.kMax with hK
    obtain ⟨st, x', h2, hreg⟩ := Iteration.iterate_total hv he (ready_scaled hr bs₁ cs₁) K
    obtain ⟨f', solver', hf', hsol', hadv⟩ := iterate_split h2
    have hff : f' = f := by
      have : Iteration.factorize v (scaled p bs₁ cs₁) q.x = Iteration.factorize v p q.x := rfl
      rw [this, hf, Outcome.ok.injEq] at hf'
      exact hf'.symm
    subst hff
    rw [hsol, Option.some.injEq] at hsol'
    subst hsol'
    have hb₂ : s₂.stats.bScale = some bs₁ := by rw [hst₂]; exact hb₁
    have hc₂ : s₂.stats.cScale = some cs₁ := by rw [hst₂]; exact hc₁
    have hcap₂ : s₂.stats.cap = cfg.maxIter := by rw [hst₂]; exact hcap₁.trans h.cap
    obtain ⟨d, s', hfin, hd, hb', hc', hcap', hk', hy', hn', hmu', -⟩ := finish_ok (sqrt := v.sqrt) (cfg := cfg) quadratic
      { c with norm := fun _ => st.norm, cx := fun _ => st.cx, bY := fun _ => st.bY } i
      (SolveLoop.finalCentering cfg i q.s) (SolveLoop.updateMu cfg i q.s) s₂ hb₂ hc₂ (by rw [hcap₂]; exact hi)
    refine ⟨d, ⟨s', x', some st⟩, ?_, Or.inr ⟨hd.symm, bs₁, cs₁, Function.update k i K, Function.update X (i + 1) x',
      Function.update ST i st, ?_⟩⟩
    · simp only [hf, hs₁, hsol, hs₂, hb₂, hc₂, SolveLoop.readVar, Outcome.bind_ok]
      have : advanceAt v { p with bs := bs₁, cs := cs₁ } cfg i K q.x f'.sys f'.r solver = .ok (st, x') := by
        unfold advanceAt
        rw [if_neg (by rw [hmode]; rintro ⟨-, h⟩; cases h)]
        exact hadv
      rw [← hK, this]
      simp only [Outcome.bind_ok, hfin]
    · have hX : ∀ l ≤ i, Function.update X (i + 1) x' l = X l := fun l hl =>
        Function.update_of_ne (by omega) _ _
      have hbs : i ≠ 0 → bs₁ = bs ∧ cs₁ = cs := by
        intro hi0
        have hb := h.bScale
        have hc := h.cScale
        rw [if_neg hi0] at hb hc
        rw [hsame (Or.inl hi0)] at hb₁ hc₁
        simp only at hb₁ hc₁
        rw [hb, Option.some.injEq] at hb₁
        rw [hc, Option.some.injEq] at hc₁
        exact ⟨hb₁.symm, hc₁.symm⟩
      refine ⟨hbp, hcp, ?_, Function.update_self _ _ _, ?_, ?_, ?_, ?_, hcap'.trans hcap₂, ?_, ?_, ?_, ?_⟩
      · rw [hX 0 (by omega)]
        exact h.zero
      · intro l hl
        rcases Nat.lt_succ_iff_lt_or_eq.1 hl with hl | rfl
        · rw [hX l hl.le, hX (l + 1) hl, Function.update_of_ne (by omega), Function.update_of_ne (by omega)]
          obtain ⟨rfl, rfl⟩ := hbs (by omega)
          exact h.steps l hl
        · rw [hX l le_rfl, Function.update_self, Function.update_self, Function.update_self, h.now]
          exact h2
      · intro l hl
        rcases Nat.lt_succ_iff_lt_or_eq.1 hl with hl | rfl
        · rw [Function.update_of_ne (by omega)]
          exact h.regular l hl
        · rw [Function.update_self]
          exact hreg
      · rw [if_neg (by omega)]
        exact hb'
      · rw [if_neg (by omega)]
        exact hc'
      · show 0 ≤ s'.k
        rw [hk']
        exact hk0.trans (SolveLoop.applyLimits_ge _ _ _)
      · intro hp
        have hb := h.bScale
        have hc := h.cScale
        rw [hsame (Or.inr hp)] at hb₁ hc₁
        simp only at hb₁ hc₁
        rw [hb, Option.some.injEq] at hb₁
        rw [hc, Option.some.injEq] at hc₁
        rw [← hb₁, ← hc₁, (h.plain hp).1, (h.plain hp).2]
        split_ifs <;> exact ⟨rfl, rfl⟩
      · intro j hj
        obtain rfl : i = j := by omega
        rw [Function.update_self, Function.update_self]
        exact ⟨hy', hk', rfl, hn'⟩
      · intro j hj
        obtain rfl : i = j := by omega
        exact hmu'

theorem not_dense {es : List (Entry ℝ)} (h : ∀ e ∈ es, ¬ MatrixCone e.item) : ∀ e ∈ es, ¬ DenseMatrix e.item := by
  intro e he hd
  refine h e he ?_
  cases hx : e.item <;> rw [hx] at hd <;> first | trivial | exact hd.elim

/-- All states are as good as the first one. -/
theorem inv_ready {v : Env ℝ} (hv : ∀ x, 0 ≤ x → SolveLoop.Spec.SqrtAt v.sqrt x) (he : ∀ x, 0 < v.exp x)
    (hs : ∀ n, MatrixExp.Spec.Solves (v.solve n)) {p : Iteration.Setup ℝ} {duals : List (List Nat)}
    {cfg : SolveLoop.Config ℝ} {x₀ : Iteration.State ℝ} {i : Nat} {q : State ℝ} {bs cs : ℝ} {k : Nat → ℝ}
    {X : Nat → Iteration.State ℝ} {ST : Nat → Iteration.Step ℝ} (h : Inv v p duals cfg x₀ i q bs cs k X ST)
    (hr : Ready p duals x₀) (hm : ∀ e ∈ x₀.es, ¬ MatrixCone e.item) :
    ∀ l ≤ i, Ready (scaled p bs cs) duals (X l) ∧ ∀ e ∈ (X l).es, ¬ MatrixCone e.item := by
  intro l
  induction l with
  | zero =>
    intro _
    rw [h.zero]
    exact ⟨ready_scaled hr _ _, hm⟩
  | succ l ih =>
    intro hl
    obtain ⟨h1, h2⟩ := ih (by omega)
    obtain ⟨h3, -, h4⟩ := Iteration.ready_next hv he hs h1 (h.steps l hl) (h.regular l hl)
      fun e he hd => absurd hd (not_dense h2 e he)
    exact ⟨h3, h4 h2⟩

/-- The whole loop. -/
theorem loop_ok {v : Env ℝ} (hv : ∀ x, 0 ≤ x → SolveLoop.Spec.SqrtAt v.sqrt x) (he : ∀ x, 0 < v.exp x)
    (hs : ∀ n, MatrixExp.Spec.Solves (v.solve n)) {p : Iteration.Setup ℝ} {duals : List (List Nat)}
    {cfg : SolveLoop.Config ℝ} (hmode : cfg.mode = 0) (hmu : 0 ≤ 1 / 10 ^ 15 + cfg.maximumMu)
    (hsteps : 0 < cfg.finalSteps) (hmax : 0 < cfg.maxIter) {quadratic : Bool}
    (hq : quadratic = false ∨ cfg.lineSearch = true) (c : SolveLoop.Oracle ℝ) {x₀ : Iteration.State ℝ}
    (hr : Ready p duals x₀) (hm : ∀ e ∈ x₀.es, ¬ MatrixCone e.item) :
    ∀ (n i : Nat) (q : State ℝ) (bs cs : ℝ) (k : Nat → ℝ) (X : Nat → Iteration.State ℝ)
      (ST : Nat → Iteration.Step ℝ), Inv v p duals cfg x₀ i q bs cs k X ST → i + n = cfg.maxIter.toNat →
      (i = 0 → q.s.centering = 0) → ∃ q' j bs' cs' k' X' ST', loop v p cfg quadratic c n i q = .ok (.brk, q') ∧
        Inv v p duals cfg x₀ (j + 1) q' bs' cs' k' X' ST' := by
  intro n
  induction n with
  | zero =>
    intro i q bs cs k X ST h hn _
    obtain ⟨j, rfl⟩ : ∃ j, i = j + 1 := ⟨i - 1, by omega⟩
    exact ⟨q, j, bs, cs, k, X, ST, rfl, h⟩
  | succ n ih =>
    intro i q bs cs k X ST h hn hc0
    have hready := (inv_ready hv he hs h hr hm i le_rfl).1
    rw [h.now] at hready
    have hready := ready_scaled hready p.bs p.cs
    obtain ⟨d, q', h1, h2⟩ := body_ok hv he hmode hmu hsteps hq c h (hr := hready) (by omega) hc0
    rcases h2 with ⟨rfl, hi, h3⟩ | ⟨hd, bs', cs', k', X', ST', h3⟩
    · obtain ⟨j, rfl⟩ : ∃ j, i = j + 1 := ⟨i - 1, by omega⟩
      refine ⟨q', j, bs, cs, k, X, ST, ?_, h3⟩
      simp only [loop, h1, Outcome.bind_ok]
    · rcases hd with rfl | rfl
      · refine ⟨q', i, bs', cs', k', X', ST', ?_, h3⟩
        simp only [loop, h1, Outcome.bind_ok]
      · obtain ⟨q'', j, bs'', cs'', k'', X'', ST'', h4, h5⟩ := ih (i + 1) q' bs' cs' k' X' ST' h3 (by omega) (by omega)
        refine ⟨q'', j, bs'', cs'', k'', X'', ST'', ?_, h5⟩
        simp only [loop, h1, Outcome.bind_ok]
        exact h4

/-! ### The program and its start -/

theorem feasible_start (P : Program ℝ) (z : Nat → ℝ) :
    Gap.Spec.Feasible (startEs P) z ↔ Gap.Spec.Feasible P.es z := by
  have : ∀ (y : Nat → ℝ) (x : Item ℝ), Gap.Spec.Sat y (setIdentity x) ↔ Gap.Spec.Sat y x := by
    intro y x
    cases x <;> exact Iff.rfl
  simp only [Gap.Spec.Feasible, startEs, identity, List.forall_mem_map, this]

theorem rank_start (P : Program ℝ) : rank (startEs P) = rank P.es := by
  have : ∀ x : Item ℝ, (setIdentity x).rank = x.rank := by
    intro x
    cases x <;> rfl
  simp only [rank, startEs, identity, List.foldl_map, this]

theorem objective_start {P : Program ℝ} (hN : P.N = P.m) {r : ℝ}
    (h : r = 1 ∨ ∀ e ∈ P.es, ∀ n Q, e.item ≠ .cost n Q) (z : Nat → ℝ) :
    Gap.Spec.objective P.N P.b r (startEs P) z = -value P z := by
  have hq : ∀ (y : Nat → ℝ) (x : Item ℝ), Gap.Spec.quadCost y (setIdentity x) = Gap.Spec.quadCost y x := by
    intro y x
    cases x <;> rfl
  have hb : ∑ u ∈ range P.N, P.b u * z u = -∑ u ∈ range P.m, P.cost u * z u := by
    rw [hN, ← sum_neg_distrib]
    refine sum_congr rfl fun u hu => ?_
    rw [Program.b, if_pos (mem_range.1 hu), neg_mul]
  unfold Gap.Spec.objective value
  rw [hb]
  simp only [startEs, identity, List.map_map, Function.comp_def, hq]
  rcases h with rfl | h
  · ring
  · have : (P.es.map fun e => Gap.Spec.quadCost (fun j => z (e.vars.getD j 0)) e.item).sum = 0 := by
      refine List.sum_eq_zero fun a ha => ?_
      obtain ⟨e, he, rfl⟩ := List.mem_map.1 ha
      cases hx : e.item <;> first | rfl | exact absurd hx (h e he _ _)
    rw [this]
    ring

end Verif.Whole
