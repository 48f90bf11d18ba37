import Verif.Lemmas.WholeSolve

/-!
# Lemmas for the dual variables of a whole solve (C75, C86)
-/

namespace Verif.Sup

variable {R : Type} [Field R] [LinearOrder R]

/-- `Solve` is `SolveInPlace` without refinement. -/
theorem solve_of_plain {llt : Nat → (Nat → Nat → R) → Option (Nat → Nat → R)} {k : Kkt} {w : Workspace} {m : Store R}
    {n : Nat} {s : Solver R} (h : (Solver.mk k w m false n none none).factor llt = .ok (some s)) :
    ∃ s₀, (Solver.mk k w m false 0 none none).factor llt = .ok (some s₀) ∧ s₀.fact = s.fact ∧
      ∀ (qr : Nat → (Nat → Nat → R) → (Nat → R) → Nat → R) (rows : Nat) (b y : Nat → R),
        s₀.solveInPlace qr rows b = .ok y → s.solve qr rows b = .ok y := by
  have hsave : ∃ sv, (Solver.mk k w m false n none none).save = ⟨k, w, m, false, n, sv, none⟩ := by
    unfold Solver.save
    by_cases h : 0 < n ∨ false = true
    · rw [if_pos h]; exact ⟨_, rfl⟩
    · rw [if_neg h]; exact ⟨_, rfl⟩
  obtain ⟨sv, hsv⟩ := hsave
  have hsv0 : (Solver.mk k w m false 0 none none).save = ⟨k, w, m, false, 0, none, none⟩ := by
    unfold Solver.save
    rw [if_neg (by simp)]
  have key : ∀ (f : Fact R) (m' : Store R), (∀ K, f ≠ .qr K) →
      ∀ (qr : Nat → (Nat → Nat → R) → (Nat → R) → Nat → R) (rows : Nat) (b y : Nat → R),
      (Solver.mk k w m' false 0 none (some f)).solveInPlace qr rows b = .ok y →
      (Solver.mk k w m' false n sv (some f)).solve qr rows b = .ok y := by
    intro f m' hf qr rows b y hy
    unfold Solver.solveInPlace at hy
    unfold Solver.solve
    by_cases hr : rows ≠ k.data.N
    · rw [if_pos hr] at hy
      cases hy
    · rw [if_neg hr] at hy ⊢
      cases f with
      | qr K => exact absurd rfl (hf K)
      | chol S => exact hy
      | ldlt F => exact hy
  unfold Solver.factor Solver.factorCore at h ⊢
  rw [hsv] at h
  rw [hsv0]
  simp only [Bool.false_eq_true, if_false] at h ⊢
  by_cases hd : (k.duals.all fun d => d.length = 0) = true
  · rw [if_pos hd] at h ⊢
    cases hc : blockCholesky llt w m with
    | ok o =>
      rw [hc] at h
      cases o with
      | none => simp [Outcome.bind] at h
      | some S =>
        simp only [Outcome.bind, Outcome.ok.injEq, Option.some.injEq] at h
        subst h
        exact ⟨_, rfl, rfl, key _ _ (by simp)⟩
    | throws => rw [hc] at h; simp [Outcome.bind] at h
    | ub => rw [hc] at h; simp [Outcome.bind] at h
    | diverges => rw [hc] at h; simp [Outcome.bind] at h
  · rw [if_neg hd] at h ⊢
    cases hc : blockLdlt w m with
    | ok F =>
      rw [hc] at h
      simp only [Outcome.bind, Outcome.ok.injEq, Option.some.injEq] at h
      subst h
      exact ⟨_, rfl, rfl, key _ _ (by simp)⟩
    | throws => rw [hc] at h; simp [Outcome.bind] at h
    | ub => rw [hc] at h; simp [Outcome.bind] at h
    | diverges => rw [hc] at h; simp [Outcome.bind] at h

end Verif.Sup

namespace Verif.Whole

open Finset Dual Iteration.Spec Spec

/-- The system of the dual preparation can be solved. -/
theorem dual_system {v : Env ℝ} (hv : ∀ x, 0 ≤ x → SolveLoop.Spec.SqrtAt v.sqrt x)
    {p : Iteration.Setup ℝ} {duals : List (List Nat)} {x : Iteration.State ℝ} (hr : Ready p duals x) (k : ℝ) :
    ∃ f solver y s, Iteration.factorize v p x = .ok f ∧ f.solver = some solver ∧
      solver.solve p.qr p.N (fun u => k * p.b u * p.bs - 1 * f.r.AW u) = .ok y ∧
      KktError.Spec.Contributions v.sqrt x.es s ∧
      ∀ u < p.N, ∑ z ∈ range p.N, Sup.Spec.total (x.es.map Entry.vars) (fun i => (s i).G) u z * y z =
        k * p.b u * p.bs - ((List.range x.es.length).map fun i =>
          Sup.Spec.ventry ((x.es.map Entry.vars).getD i []) (s i).AW u).sum := by
  obtain ⟨hb, hcomp, hno, hg, hu, hz, hd⟩ := hr
  obtain ⟨sys, h1, h2⟩ := Iteration.schurAll_total hv x.es hg hu hz
  have hnd : ∀ c ∈ x.es.map Entry.vars, c.Nodup := by
    intro c hc
    obtain ⟨e, he, rfl⟩ := List.mem_map.1 hc
    exact (hg e he).1
  obtain ⟨w, m, h3, h4, -⟩ := Sup.C69_assembled_system _ duals hnd (by simp [hb.length]) hno p.kkt hb.kkt hb.noShift
    p.N hb.occurs p.llt hb.llt hcomp p.qr (fun i => (Iteration.sysAt sys i).G) x.mat p.refine
  obtain ⟨w', m', h3', h4', -⟩ := Sup.C69_assembled_system _ duals hnd (by simp [hb.length]) hno p.kkt hb.kkt hb.noShift
    p.N hb.occurs p.llt hb.llt hcomp p.qr (fun i => (Iteration.sysAt sys i).G) x.mat 0
  rw [h3, Outcome.ok.injEq, Prod.mk.injEq] at h3'
  obtain ⟨rfl, rfl⟩ := h3'
  obtain ⟨solver, h5, -⟩ := h4 (Iteration.posDef hg hd h2)
  obtain ⟨s₀, h5', h6⟩ := h4' (Iteration.posDef hg hd h2)
  obtain ⟨s₁, h5'', -, h7⟩ := Sup.solve_of_plain h5
  rw [h5', Outcome.ok.injEq, Option.some.injEq] at h5''
  subst h5''
  obtain ⟨r, h8, -, -, h9, -⟩ := Sup.C19_residuals p.N (x.es.map Entry.vars)
    (fun i => KktError.resid (Iteration.sysAt sys i)) hnd fun c hc u hu => (hb.occurs u).2 ⟨c, hc, hu⟩
  obtain ⟨y, h10, h11⟩ := h6 fun u => k * p.b u * p.bs - 1 * r.AW u
  refine ⟨⟨sys, r, some solver⟩, solver, y, Iteration.sysAt sys, ?_, rfl, h7 _ _ _ _ h10,
    (Iteration.schurAll_spec _ h1 hz).2, fun u hu => ?_⟩
  · unfold Iteration.factorize
    simp only [h1, h3, h8, hb.mode, h5, Outcome.bind_ok]
  · rw [h11 u hu, h9 u]
    simp only [List.length_map, KktError.resid]
    ring

/-- The dual preparation of a constraint is defined. -/
theorem item_dual_total {v : Env ℝ} (hv : ∀ x, 0 ≤ x → SolveLoop.Spec.SqrtAt v.sqrt x) (he : ∀ x, 0 < v.exp x)
    {vars : List Nat} {N : Nat} {x : Item ℝ} (hg : Gap.Spec.Good ⟨vars, x⟩ N) (hu : Usable x) (t : ℝ)
    (y : Nat → ℝ) : ∃ x', x.prepareDual v.sqrt v.exp t vars.length y = .ok x' := by
  obtain ⟨-, -, h⟩ := hg
  cases x with
  | linear o w =>
    have h1 : o.m = vars.length := h.1
    simp only [Item.prepareDual, Linear.prepareStep, if_true, Linear.negativeSlack, h1, lt_irrefl, if_false]
    exact ⟨_, rfl⟩
  | lmi m o w =>
    simp only [Item.prepareDual, Lmi.prepareAffine, Lmi.negativeSlack_eq o 0 h.1.le y, Outcome.bind_ok]
    exact ⟨_, rfl⟩
  | hermitian d m hd o w =>
    obtain ⟨C, hC⟩ := hu
    simp only [Item.prepareDual, HermLmi.prepareAffine, HermLmi.negativeSlack_eq hC 0 h.1.le y, Outcome.bind_ok]
    exact ⟨_, rfl⟩
  | octonion m o w => exact absurd h id
  | soc o w =>
    obtain ⟨hm, ho, hw⟩ := h
    simp only at hm
    obtain ⟨w', a, b, e1, -, -⟩ := Soc.C36_step hv he o ho 0 y 1 w hw
    exact ⟨.soc o w', by simp only [Item.prepareDual, ← hm, e1, Outcome.bind_ok]⟩
  | quad o w =>
    obtain ⟨hm, ho, hB, hw⟩ := h
    simp only at hm
    obtain ⟨w', a, b, e1, -⟩ := QuadCone.C36_step hv he o hB 0 y 1 w hw
    exact ⟨.quad o w', by simp only [Item.prepareDual, ← hm, e1, Outcome.bind_ok]⟩
  | equality o => exact hu.elim
  | cost m Q => exact ⟨_, rfl⟩

/-- The dual preparation is defined. -/
theorem prepareDual_total {v : Env ℝ} (hv : ∀ x, 0 ≤ x → SolveLoop.Spec.SqrtAt v.sqrt x) (he : ∀ x, 0 < v.exp x)
    {N : Nat} (t : ℝ) (y : Nat → ℝ) (es : List (Entry ℝ)) : (∀ e ∈ es, Gap.Spec.Good e N) →
    (∀ e ∈ es, Usable e.item) → ∃ es', Dual.prepareDual v.sqrt v.exp t N y es = .ok es' := by
  induction es with
  | nil => exact fun _ _ => ⟨[], rfl⟩
  | cons e es ih =>
    intro hg hu
    obtain ⟨vars, x⟩ := e
    have hge := hg _ List.mem_cons_self
    obtain ⟨x', h1⟩ := item_dual_total hv he hge (hu _ List.mem_cons_self) t (fun j => y (vars.getD j 0))
    obtain ⟨es', h2⟩ := ih (fun e he => hg e (List.mem_cons_of_mem _ he)) fun e he => hu e (List.mem_cons_of_mem _ he)
    exact ⟨⟨vars, x'⟩ :: es', by simp only [Dual.prepareDual, gather_ok hge.2.1, Outcome.bind_ok, h1, h2]⟩

/-- What follows the loop is defined. -/
theorem after_ok {v : Env ℝ} (hv : ∀ x, 0 ≤ x → SolveLoop.Spec.SqrtAt v.sqrt x) (he : ∀ x, 0 < v.exp x)
    {p : Iteration.Setup ℝ} {duals : List (List Nat)} {q : State ℝ} {bs : ℝ} (hb : q.s.stats.bScale = some bs)
    (hr : Ready { p with bs := bs } duals q.x) (cfg : SolveLoop.Config ℝ) : ∃ es, after v p cfg q = .ok (some es) := by
  unfold after
  by_cases h : cfg.prepareDual = true
  · rw [if_pos h, hb]
    simp only [SolveLoop.readVar, Outcome.bind_ok]
    obtain ⟨f, solver, y, s, h1, h2, h3, -⟩ := dual_system hv hr q.s.k
    obtain ⟨es, h4⟩ := prepareDual_total hv he (lastSize q.last) y q.x.es hr.good hr.usable
    refine ⟨es, ?_⟩
    unfold prepareDuals
    simp only [h1, Outcome.bind_ok, h2, h3, h4]
  · rw [if_neg h]
    exact ⟨_, rfl⟩

/-- The structure of a whole solve: iterations that follow one another, and what comes after them. -/
theorem solve_ok {v : Env ℝ} (hv : ∀ x, 0 ≤ x → SolveLoop.Spec.SqrtAt v.sqrt x) (he : ∀ x, 0 < v.exp x)
    (hs : ∀ n, MatrixExp.Spec.Solves (v.solve n)) {l : Linear ℝ} (hl : Dense.Spec.LltContract l.llt)
    (hc : Dense.Spec.LltComplete l.llt) (hqr : l.useQr = false) {P : Program ℝ} (hP : VectorProgram P)
    {cfg : SolveLoop.Config ℝ} (hmode : cfg.mode = 0) (hmu : 0 ≤ 1 / 10 ^ 15 + cfg.maximumMu)
    (hsteps : 0 < cfg.finalSteps) (hmax : 0 < cfg.maxIter)
    (hq : P.quadratic = false ∨ (cfg.lineSearch = true ∧ cfg.rescaling = false)) (status : SolveLoop.Status)
    (c : SolveLoop.Oracle ℝ) :
    ∃ kkt q j bs cs k X ST res es,
      Inv v ⟨P.N, P.b, 1, 1, kkt, l.useQr, l.refine, l.llt, l.qr⟩ P.duals cfg ⟨startEs P, P.sys, l.mat⟩ (j + 1) q bs cs
        k X ST ∧
      Ready ⟨P.N, P.b, 1, 1, kkt, l.useQr, l.refine, l.llt, l.qr⟩ P.duals ⟨startEs P, P.sys, l.mat⟩ ∧
      (∀ e ∈ startEs P, ¬ MatrixCone e.item) ∧ P.N = P.m ∧
      after v ⟨P.N, P.b, 1, 1, kkt, l.useQr, l.refine, l.llt, l.qr⟩ cfg q = .ok (some es) ∧
      solve v l P cfg status c = .ok ⟨res, array res.out q.last, q.last, some es⟩ ∧
      res.prog.stats = some q.s.stats ∧ res.final = some (q.s.k, q.s.kMax) ∧ (res.ret = true →
        SolveLoop.overThreshold cfg q.s.k = false ∧
        res.out = .scaled (some j) q.s.k cs ∧ res.prog.status.primalInf = false) := by
  obtain ⟨hN, kkt, hk, hr, hm⟩ := start_ready hP hl hc hqr
  have hne : P.es.length ≠ 0 := by
    obtain ⟨e, h, -⟩ := hP.first
    have := (List.getElem?_eq_some_iff.1 h).1
    omega
  unfold solve solveAt
  rw [if_neg (not_not.2 hq)]
  simp only [if_neg hne, hk, Outcome.bind_ok, SolveLoop.initProgram, hmode, or_true, if_true, ne_eq, not_true_eq_false,
    and_false, if_false]
  obtain ⟨q, j, bs, cs, k, X, ST, h1, h2⟩ := loop_ok hv he hs hmode hmu hsteps hmax
    (quadratic := P.quadratic) (hq.imp_right And.left) c hr hm cfg.maxIter.toNat 0
    ⟨SolveLoop.start cfg ⟨cfg.maxIter, none, some 1, some 1, []⟩, ⟨startEs P, P.sys, l.mat⟩, none⟩ 1 1 (fun _ => 0)
    (fun _ => ⟨startEs P, P.sys, l.mat⟩) (fun _ => ⟨fun _ => 0, 0, 0, 0, 0, none⟩)
    ⟨one_pos, one_pos, rfl, rfl, by simp, by simp, rfl, rfl, rfl, le_rfl, fun _ => ⟨rfl, rfl⟩, by simp, by simp⟩ (by simp)
    fun _ => rfl
  have h1' := h1
  unfold startEs at h1'
  rw [h1']
  obtain ⟨hy, hkj, hlast, hnum⟩ := h2.last j rfl
  have hbs := h2.bScale
  have hcs := h2.cScale
  rw [if_neg (by omega)] at hbs hcs
  obtain ⟨res, hres, hst, hfi, hret⟩ : ∃ res, SolveLoop.post cfg (SolveLoop.initProgram (SolveLoop.clearStatus
      ⟨P.quadratic, P.es.length, false, none, status⟩) cfg) q.s = .ok res ∧ res.prog.stats = some q.s.stats ∧
        res.final = some (q.s.k, q.s.kMax) ∧ (res.ret = true → SolveLoop.overThreshold cfg q.s.k = false ∧
          res.out = .scaled (some j) q.s.k cs ∧ res.prog.status.primalInf = false) := by
    unfold SolveLoop.post SolveLoop.output
    cases ho : SolveLoop.overThreshold cfg q.s.k with
    | true =>
      refine ⟨_, by simp only [hnum, SolveLoop.readVar, Outcome.bind_ok, if_true]; rfl, rfl, rfl, fun h => ?_⟩
      simp at h
    | false =>
      refine ⟨_, by simp only [hnum, hcs, SolveLoop.readVar, Outcome.bind_ok, Bool.false_eq_true, if_false]; rfl,
        rfl, rfl, fun _ => ⟨rfl, ?_, rfl⟩⟩
      rw [hy]
  have hrj := (inv_ready hv he hs h2 hr hm (j + 1) le_rfl).1
  rw [h2.now] at hrj
  obtain ⟨es, hes⟩ := after_ok hv he (p := ⟨P.N, P.b, 1, 1, kkt, l.useQr, l.refine, l.llt, l.qr⟩) hbs
    (ready_scaled hrj bs 1) cfg
  refine ⟨kkt, q, j, bs, cs, k, X, ST, res, es, h2, hr, hm, hN, hes, ?_, hst, hfi, hret⟩
  · have : SolveLoop.initProgram (SolveLoop.clearStatus ⟨P.quadratic, P.es.length, false, none, status⟩) cfg =
        (⟨P.quadratic, P.es.length, true, some ⟨cfg.maxIter, none, some 1, some 1, []⟩,
          (SolveLoop.clearStatus (R := ℝ) ⟨P.quadratic, P.es.length, false, none, status⟩).status⟩ :
            SolveLoop.Prog ℝ) := by
      simp [SolveLoop.initProgram, hmode, SolveLoop.clearStatus]
    rw [this] at hres
    simp only [Outcome.bind_ok, SolveLoop.clearStatus] at hres ⊢
    rw [hres]
    simp only [Outcome.bind_ok, hes]

end Verif.Whole
