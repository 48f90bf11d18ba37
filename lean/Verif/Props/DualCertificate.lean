import Verif.Lemmas.DualCertificate
import Verif.Props.WholeSolve

/-!
# C86: dual variables of linear programs

After a successful solve the dual variables satisfy the dual equations exactly.  If the last direction is short, they
are nonnegative and prove that the returned point is almost optimal.
-/

namespace Verif.Whole

open Finset Dual Iteration.Spec Spec

/-- `Solve` on a cold start of a linear program, followed by reading all dual variables.  Partial: that they are
nonnegative holds if the last direction is short, which a successful return does not imply. -/
theorem C86_certificate_partial (v : Env ℝ) (hv : ∀ x, 0 ≤ x → SolveLoop.Spec.SqrtAt v.sqrt x)
    (hexp : v.exp = Real.exp) (hs : ∀ n, MatrixExp.Spec.Solves (v.solve n)) (l : Linear ℝ)
    (hl : Dense.Spec.LltContract l.llt) (hc : Dense.Spec.LltComplete l.llt) (hqr : l.useQr = false) (P : Program ℝ)
    (hP : VectorProgram P) (hlin : LinearProgram P) (cfg : SolveLoop.Config ℝ) (hdual : cfg.prepareDual = true)
    (hmode : cfg.mode = 0) (hmu : 0 ≤ 1 / 10 ^ 15 + cfg.maximumMu) (hsteps : 0 < cfg.finalSteps)
    (hmax : 0 < cfg.maxIter) (hq : P.quadratic = false ∨ (cfg.lineSearch = true ∧ cfg.rescaling = false))
    (status : SolveLoop.Status) (c : SolveLoop.Oracle ℝ) :
    ∃ r st es, solve v l P cfg status c = .ok r ∧ r.last = some st ∧ r.es = some es ∧
      (r.res.ret = true → ∃ k kMax stats bs cs z x, r.res.final = some (k, kMax) ∧ r.res.prog.stats = some stats ∧
        stats.bScale = some bs ∧ stats.cScale = some cs ∧ 0 < k ∧ 0 < bs ∧ 0 < cs ∧ r.array = some z ∧
        Reads P es r.res.prog x ∧ DualEquations P x ∧
        (st.norm ≤ 1 → st.norm ^ 2 * st.normsqrd ≤ 1 → Gap.Spec.Feasible P.es z ∧ Nonnegative P x ∧
          (∀ z', Gap.Spec.Feasible P.es z' → -dualValue P x ≤ value P z') ∧
          value P z ≤ -dualValue P x + 2 * rank P.es / (k ^ 2 * bs * cs))) := by
  have he : ∀ x, 0 < v.exp x := fun x => hexp ▸ Real.exp_pos x
  obtain ⟨kkt, q, j, bs, cs, k, X, ST, res, es, h2, hr, hm, hN, haft, hsol, h5, h4, hret⟩ :=
    solve_ok hv he hs hl hc hqr hP hmode hmu hsteps hmax hq status c
  obtain ⟨-, hkj, hlast, hnum⟩ := h2.last j rfl
  have hmuj := h2.mu j rfl
  have hbs := h2.bScale
  have hcs := h2.cScale
  rw [if_neg (by omega)] at hbs hcs
  refine ⟨⟨res, array res.out q.last, q.last, some es⟩, ST j, es, hsol, hlast, rfl, fun h => ?_⟩
  obtain ⟨h3, h6, h7⟩ := hret h
  have hk0 : 0 < k j := by
    rw [← hkj]
    refine lt_of_le_of_ne h2.nonneg fun h => ?_
    simp [SolveLoop.overThreshold, ← h] at h3
  have hready := fun l hl => (inv_ready hv he hs h2 hr hm l hl).1
  have hL := lin_of hlin hP
  have hsame := run_same hL (h2.zero ▸ start_same hlin) h2.steps hready
  have hsj := hsame j (by omega)
  have hsj1 := hsame (j + 1) le_rfl
  have hLj := hsj.rows hL
  -- what follows the loop
  unfold after at haft
  rw [if_pos hdual, hbs] at haft
  simp only [SolveLoop.readVar, Outcome.bind_ok] at haft
  rw [← h2.now] at haft
  have hrj1 := ready_scaled (hready (j + 1) le_rfl) bs 1
  obtain ⟨hS, -, hbal⟩ := prepared_balance hv hrj1 (hsj1.rows hL) haft
  have hS' := hsj1.trans hS
  have hscale : dualScale res.prog.stats = .ok (k j * bs) := by
    unfold dualScale
    rw [h5]
    simp only [SolveLoop.readVar, Outcome.bind_ok, hnum, Nat.add_sub_cancel, hmuj, hbs, hkj]
  have hkb : k j * bs ≠ 0 := (mul_pos hk0 h2.bpos).ne'
  have hD : DualEquations P fun i r => scal (nth es i).item r / (k j * bs) := by
    intro u hu
    rw [balance_div, ← hsj1.balance, hbal u (by show u < P.N; omega)]
    show q.s.k * P.b u * bs / (k j * bs) = _
    unfold Program.b
    rw [if_pos hu, hkj]
    have h1 := hk0.ne'
    have h2' := h2.bpos.ne'
    field_simp
  refine ⟨q.s.k, q.s.kMax, q.s.stats, bs, cs, fun u => (ST j).y u / q.s.k / cs,
    fun i r => scal (nth es i).item r / (k j * bs), h4, h5, hbs, hcs, hkj ▸ hk0, h2.bpos,
    h2.cpos, by simp only [h6, hlast, array], reads_of hS' h7 hscale, hD, fun hn hn2 => ?_⟩
  rw [hkj] at haft
  obtain ⟨-, hcert⟩ := certificate hv hexp (hready j (by omega))
    (p' := scaled (scaled _ bs cs) bs 1) ⟨rfl, rfl, rfl⟩ hrj1 hLj (h2.steps j (by omega))
    (h2.regular j (by omega)) haft hn hn2
  have hcert' : ∀ i < P.es.length, ∀ r < (con (nth P.es i).item).n, 0 ≤ scal (nth es i).item r ∧
      0 ≤ Linear.Spec.slack (con (nth P.es i).item) (k j * cs) (fun a => (ST j).y ((nth P.es i).vars.getD a 0)) r ∧
      Linear.Spec.slack (con (nth P.es i).item) (k j * cs) (fun a => (ST j).y ((nth P.es i).vars.getD a 0)) r *
        scal (nth es i).item r ≤ 2 := by
    intro i hi r hr
    have := hcert i (hsj.length.symm ▸ hi) r (by rw [hsj.con hi]; exact hr)
    rw [hsj.con hi, hsj.vars i hi] at this
    exact this
  have hslack : ∀ i r, (con (nth P.es i).item).c r - ∑ a ∈ range (con (nth P.es i).item).m,
      (con (nth P.es i).item).A r a * ((ST j).y ((nth P.es i).vars.getD a 0) / q.s.k / cs) =
      Linear.Spec.slack (con (nth P.es i).item) (k j * cs) (fun a => (ST j).y ((nth P.es i).vars.getD a 0)) r /
        (k j * cs) := by
    intro i r
    have h1 := hk0.ne'
    have h2' := h2.cpos.ne'
    unfold Linear.Spec.slack
    rw [sub_div, sum_div, mul_div_cancel_left₀ _ (mul_ne_zero h1 h2'), hkj]
    congr 1
    exact sum_congr rfl fun a _ => by rw [div_div, mul_div_assoc]
  have hnn : Nonnegative P fun i r => scal (nth es i).item r / (k j * bs) := fun i hi r hr =>
    div_nonneg (hcert' i hi r hr).1 (mul_pos hk0 h2.bpos).le
  refine ⟨?_, hnn, fun z' hz' => weak_duality hlin hP hD hnn hz', ?_⟩
  · intro e hme
    obtain ⟨i, hi⟩ := List.getElem?_of_mem hme
    have hlt := (List.getElem?_eq_some_iff.1 hi).1
    have hi' := nth_of hi
    subst hi'
    obtain ⟨o, w, ho⟩ := hlin _ hme
    have e1 : con (nth P.es i).item = o := by rw [ho]; rfl
    rw [ho]
    intro r hr
    have := hslack i r
    have h0 := (hcert' i hlt r (e1.symm ▸ hr)).2.1
    rw [e1] at this h0
    have h9 := div_nonneg h0 (mul_pos hk0 h2.cpos).le
    rw [← this] at h9
    linarith
  · have hgap := duality_gap hlin hP hD fun u => (ST j).y u / q.s.k / cs
    have hle : value P (fun u => (ST j).y u / q.s.k / cs) +
        dualValue P (fun i r => scal (nth es i).item r / (k j * bs)) ≤ 2 * rank P.es / (k j ^ 2 * bs * cs) := by
      rw [hgap]
      have hrank : (2 : ℝ) * rank P.es / (k j ^ 2 * bs * cs) = ∑ i ∈ range P.es.length,
          ∑ r ∈ range (con (nth P.es i).item).n, 2 / (k j ^ 2 * bs * cs) := by
        rw [Gap.rank_eq, Gap.list_sum, mul_sum, sum_div]
        refine sum_congr rfl fun i hi => ?_
        obtain ⟨o, w, ho⟩ := hlin _ (nth_mem (mem_range.1 hi))
        rw [nth_get (mem_range.1 hi)]
        simp only [Option.map_some, Option.getD_some, ho, Item.rank, con, sum_const, card_range, nsmul_eq_mul]
        ring
      rw [hrank]
      refine sum_le_sum fun i hi => sum_le_sum fun r hr => ?_
      rw [hslack, div_mul_div_comm]
      have e3 : k j * bs * (k j * cs) = k j ^ 2 * bs * cs := by ring
      rw [e3, mul_comm]
      have := h2.bpos
      have := h2.cpos
      exact div_le_div_of_nonneg_right (hcert' i (mem_range.1 hi) r (mem_range.1 hr)).2.2 (by positivity)
    rw [hkj] at hle ⊢
    linarith

/-- The full statement, for options with which a solve only succeeds after a short direction, as in `C75_centered`; with
the default tolerance 0.01 there may be up to 10⁸ rows. -/
theorem C86_centered (v : Env ℝ) (hv : ∀ x, 0 ≤ x → SolveLoop.Spec.SqrtAt v.sqrt x)
    (hexp : v.exp = Real.exp) (hs : ∀ n, MatrixExp.Spec.Solves (v.solve n)) (l : Linear ℝ)
    (hl : Dense.Spec.LltContract l.llt) (hc : Dense.Spec.LltComplete l.llt) (hqr : l.useQr = false) (P : Program ℝ)
    (hP : VectorProgram P) (hlin : LinearProgram P) (cfg : SolveLoop.Config ℝ) (hdual : cfg.prepareDual = true)
    (hmode : cfg.mode = 0) (hmu : 0 ≤ 1 / 10 ^ 15 + cfg.maximumMu) (hsteps : 0 < cfg.finalSteps)
    (hmax : 0 < cfg.maxIter) (htol : cfg.finalTol ≤ 1) (hrank : cfg.finalTol ^ 4 * rank P.es ≤ 1)
    (hall : cfg.maxIter ≤ cfg.finalSteps + 2)
    (hq : P.quadratic = false ∨ (cfg.lineSearch = true ∧ cfg.rescaling = false))
    (status : SolveLoop.Status) (c : SolveLoop.Oracle ℝ) :
    ∃ r es, solve v l P cfg status c = .ok r ∧ r.es = some es ∧
      (r.res.ret = true → ∃ k kMax stats bs cs z x, r.res.final = some (k, kMax) ∧ r.res.prog.stats = some stats ∧
        stats.bScale = some bs ∧ stats.cScale = some cs ∧ 0 < k ∧ 0 < bs ∧ 0 < cs ∧ r.array = some z ∧
        Reads P es r.res.prog x ∧ DualEquations P x ∧ Gap.Spec.Feasible P.es z ∧ Nonnegative P x ∧
        (∀ z', Gap.Spec.Feasible P.es z' → -dualValue P x ≤ value P z') ∧
        value P z ≤ -dualValue P x + 2 * rank P.es / (k ^ 2 * bs * cs)) := by
  have he : ∀ x, 0 < v.exp x := fun x => hexp ▸ Real.exp_pos x
  obtain ⟨r, st, es, h1, h2, h3, h4⟩ := C86_certificate_partial v hv hexp hs l hl hc hqr P hP hlin cfg hdual hmode hmu
    hsteps hmax hq status c
  refine ⟨r, es, h1, h3, fun hret => ?_⟩
  obtain ⟨k, kMax, stats, bs, cs, z, x, a1, a2, a3, a4, a5, a6, a7, a8, a9, a10, a11⟩ := h4 hret
  obtain ⟨st', h5, h6⟩ := short_direction h1 (by rw [a1]; simp) hret hsteps hall
  rw [h2, Option.some.injEq] at h5
  subst h5
  have h7 := norm_bound hv he hs hl hc hqr hP hlin hmode hmu hsteps hmax hq h1 h2
  have h8 : st.norm ^ 2 ≤ cfg.finalTol ^ 2 := sq_le_sq' (neg_le_of_abs_le h6) (le_of_abs_le h6)
  have h9 : (0 : ℝ) ≤ rank P.es := Nat.cast_nonneg _
  refine ⟨k, kMax, stats, bs, cs, z, x, a1, a2, a3, a4, a5, a6, a7, a8, a9, a10,
    a11 ((le_abs_self _).trans (h6.trans htol)) ?_⟩
  calc st.norm ^ 2 * st.normsqrd ≤ st.norm ^ 2 * (rank P.es * st.norm ^ 2) :=
        mul_le_mul_of_nonneg_left h7 (sq_nonneg _)
    _ = (st.norm ^ 2) ^ 2 * rank P.es := by ring
    _ ≤ (cfg.finalTol ^ 2) ^ 2 * rank P.es := by gcongr
    _ = cfg.finalTol ^ 4 * rank P.es := by ring
    _ ≤ 1 := hrank

/-! ### Examples -/

/-- Minimise `a y` subject to `y ≤ 1` and, with a second row, `-y ≤ 1`. -/
noncomputable def exLinear (a : ℝ) (n : Nat) (w : Linear.Ws ℝ) : Program ℝ :=
  ⟨1, fun _ => a, [⟨[0], .linear ⟨n, 1, fun i _ => if i = 0 then 1 else -1, fun _ => 1⟩ w⟩], [[]],
    [⟨1, fun _ _ => 0, fun _ => 0, fun _ => 0, 0, 0⟩], false⟩

theorem exLinear_good (a : ℝ) (n : Nat) (w : Linear.Ws ℝ) :
    VectorProgram (exLinear a (n + 1) w) ∧ LinearProgram (exLinear a (n + 1) w) := by
  refine ⟨⟨?_, ⟨_, rfl, by simp⟩, rfl, by simp [exLinear], by simp [Sized, exLinear], ?_, ?_, ?_, ?_⟩, ?_⟩
  · intro e he
    simp only [exLinear, List.mem_cons, List.not_mem_nil, or_false] at he
    subst he
    exact ⟨by simp, by simp [exLinear], rfl, Nat.succ_pos n⟩
  · intro u hu
    have : u < 1 := hu
    exact ⟨_, List.mem_cons_self, by simp; omega⟩
  · intro k hk
    obtain ⟨k', hk', hn⟩ : ∃ k, Sup.kktInit [[0]] [[]] = .ok k ∧ Sup.Spec.NoShift k :=
      ⟨_, rfl, Sup.noShift_of_bounded (n := 1) (by decide +kernel) (by decide +kernel)⟩
    have : Outcome.ok k = Outcome.ok k' := hk.symm.trans hk'
    rw [Outcome.ok.injEq] at this
    exact this ▸ hn
  · rintro z ⟨u, hu, hz⟩
    refine ⟨_, List.mem_cons_self, fun h => hz ?_⟩
    have hu0 : u = 0 := by
      have : u < 1 := hu
      omega
    have := h 0 (by simp)
    simpa [hu0] using this
  · intro e he n' Q h
    simp only [exLinear, List.mem_cons, List.not_mem_nil, or_false] at he
    subst he
    cases h
  · intro e he
    simp only [exLinear, List.mem_cons, List.not_mem_nil, or_false] at he
    subst he
    exact ⟨_, _, rfl⟩

/-- The hypotheses of `C86_certificate_partial`, with the default options (`/repo/conex/cone_program.h` 17-38) but for
the preparation of dual variables. -/
example (w : Linear.Ws ℝ) (status : SolveLoop.Status) (c : SolveLoop.Oracle ℝ) :
    ∃ r es, solve Gap.exEnv ⟨false, 1, Sup.realLlt, fun _ _ b => b, fun _ => 0⟩ (exLinear (-1) 2 w)
      ⟨true, 0, 1000, 10 ^ 4, false, 5, 1 / 100, 0, 0, 2, 25, 10 ^ 5, 10 ^ 10, true⟩ status c = .ok r ∧ r.es = some es ∧
      (r.res.ret = true → ∃ x, Reads (exLinear (-1) 2 w) es r.res.prog x ∧ x 0 0 - x 0 1 = 1) := by
  obtain ⟨r, st, es, h1, -, h2, h3⟩ := C86_certificate_partial Gap.exEnv Gap.exEnv_sqrt rfl Iteration.ex_solves
    ⟨false, 1, Sup.realLlt, fun _ _ b => b, fun _ => 0⟩ Sup.realLlt_contract Sup.realLlt_complete rfl (exLinear (-1) 2 w)
    (exLinear_good _ 1 w).1 (exLinear_good _ 1 w).2
    ⟨true, 0, 1000, 10 ^ 4, false, 5, 1 / 100, 0, 0, 2, 25, 10 ^ 5, 10 ^ 10, true⟩ rfl rfl (by norm_num) (by norm_num)
    (by norm_num) (Or.inl rfl) status c
  refine ⟨r, es, h1, h2, fun h => ?_⟩
  obtain ⟨k, kMax, stats, bs, cs, z, x, -, -, -, -, -, -, -, -, h4, h5, -⟩ := h3 h
  refine ⟨x, h4, ?_⟩
  have := h5 0 Nat.zero_lt_one
  simpa [balance, exLinear, nth, con, Sup.Spec.ventry, sum_range_succ, sub_eq_add_neg] using this

/-- The hypotheses of `C86_centered`: the same with 23 final centering steps. -/
example (w : Linear.Ws ℝ) (status : SolveLoop.Status) (c : SolveLoop.Oracle ℝ) :
    ∃ r es, solve Gap.exEnv ⟨false, 1, Sup.realLlt, fun _ _ b => b, fun _ => 0⟩ (exLinear (-1) 2 w)
      ⟨true, 0, 1000, 10 ^ 4, false, 23, 1 / 100, 0, 0, 2, 25, 10 ^ 5, 10 ^ 10, true⟩ status c = .ok r ∧ r.es = some es ∧
      (r.res.ret = true → ∃ x, Reads (exLinear (-1) 2 w) es r.res.prog x ∧ Nonnegative (exLinear (-1) 2 w) x) := by
  obtain ⟨r, es, h1, h2, h3⟩ := C86_centered Gap.exEnv Gap.exEnv_sqrt rfl Iteration.ex_solves
    ⟨false, 1, Sup.realLlt, fun _ _ b => b, fun _ => 0⟩ Sup.realLlt_contract Sup.realLlt_complete rfl (exLinear (-1) 2 w)
    (exLinear_good _ 1 w).1 (exLinear_good _ 1 w).2
    ⟨true, 0, 1000, 10 ^ 4, false, 23, 1 / 100, 0, 0, 2, 25, 10 ^ 5, 10 ^ 10, true⟩ rfl rfl (by norm_num) (by norm_num)
    (by norm_num) (by norm_num) (by norm_num [exLinear, rank, Item.rank]) (by norm_num) (Or.inl rfl) status c
  refine ⟨r, es, h1, h2, fun h => ?_⟩
  obtain ⟨k, kMax, stats, bs, cs, z, x, -, -, -, -, -, -, -, -, h4, -, -, h5, -⟩ := h3 h
  exact ⟨x, h4, h5⟩

/-- The program is unbounded. -/
theorem exLinear_unbounded (w : Linear.Ws ℝ) (M : ℝ) :
    ∃ z, Gap.Spec.Feasible (exLinear 1 1 w).es z ∧ value (exLinear 1 1 w) z ≤ M := by
  refine ⟨fun _ => min M 1, ?_, ?_⟩
  · intro e he
    simp only [exLinear, List.mem_cons, List.not_mem_nil, or_false] at he
    subst he
    intro r hr
    have : r = 0 := by
      have : r < 1 := hr
      omega
    simp [this]
  · simp [value, exLinear, Gap.Spec.quadCost]

/-- A solve with these options succeeds. -/
theorem exLinear_succeeds (w : Linear.Ws ℝ) (status : SolveLoop.Status) (c : SolveLoop.Oracle ℝ) {r : Result ℝ}
    (h1 : solve Gap.exEnv ⟨false, 1, Sup.realLlt, fun _ _ b => b, fun _ => 0⟩ (exLinear 1 1 w) forced status c = .ok r) :
    r.res.ret = true := by
  obtain ⟨o, -, -, -, h4⟩ := C75_refines _ _ _ _ rfl rfl forced _ _ h1
  refine (forced_solve Gap.exEnv_sqrt 0 status o h4 ?_).1
  obtain ⟨kkt, q, j, bs, cs, k, X, ST, res, es', -, -, -, -, -, h5, -, h6, -⟩ :=
    solve_ok Gap.exEnv_sqrt Real.exp_pos Iteration.ex_solves
      (l := ⟨false, 1, Sup.realLlt, fun _ _ b => b, fun _ => 0⟩) Sup.realLlt_contract Sup.realLlt_complete rfl
      (exLinear_good 1 0 w).1 (cfg := forced) rfl (by norm_num [forced]) (by norm_num [forced])
      (by norm_num [forced]) (Or.inl rfl) status c
  rw [h5, Outcome.ok.injEq] at h1
  subst h1
  rw [h6]
  simp

/-- C86 fails without the condition on the last direction: minimising `y` subject to `y ≤ 1` is unbounded
(`exLinear_unbounded`), so that no nonnegative solution of the dual equations exists; but with options whose largest
`inv_sqrt_mu` lies below the smallest one every solve reports success, and the dual variable that is read afterwards
is -1 (F86). -/
theorem C86_violated (w : Linear.Ws ℝ) (status : SolveLoop.Status) (c : SolveLoop.Oracle ℝ) :
    ∃ r es x, solve Gap.exEnv ⟨false, 1, Sup.realLlt, fun _ _ b => b, fun _ => 0⟩ (exLinear 1 1 w) forced status c =
        .ok r ∧ r.res.ret = true ∧ r.es = some es ∧ Reads (exLinear 1 1 w) es r.res.prog x ∧ x 0 0 = -1 := by
  obtain ⟨r, st, es, h1, -, h2, h3⟩ := C86_certificate_partial Gap.exEnv Gap.exEnv_sqrt rfl Iteration.ex_solves
    ⟨false, 1, Sup.realLlt, fun _ _ b => b, fun _ => 0⟩ Sup.realLlt_contract Sup.realLlt_complete rfl (exLinear 1 1 w)
    (exLinear_good _ 0 w).1 (exLinear_good _ 0 w).2 forced rfl rfl (by norm_num [forced]) (by norm_num [forced])
    (by norm_num [forced]) (Or.inl rfl) status c
  have hret := exLinear_succeeds w status c h1
  obtain ⟨k, kMax, stats, bs, cs, z, x, -, -, -, -, -, -, -, -, h5, h6, -⟩ := h3 hret
  refine ⟨r, es, x, h1, hret, h2, h5, ?_⟩
  have := h6 0 Nat.zero_lt_one
  simpa [balance, exLinear, nth, con, Sup.Spec.ventry] using this

/-- C75 fails without the condition on the last direction: in the same solve, which reports success, the point in the
array is not optimal up to any gap (F86). -/
theorem C75_unbounded_violated (w : Linear.Ws ℝ) (status : SolveLoop.Status) (c : SolveLoop.Oracle ℝ) :
    ∃ r z, solve Gap.exEnv ⟨false, 1, Sup.realLlt, fun _ _ b => b, fun _ => 0⟩ (exLinear 1 1 w) forced status c =
        .ok r ∧ r.res.ret = true ∧ r.array = some z ∧
      ∀ gap, ∃ x, Gap.Spec.Feasible (exLinear 1 1 w).es x ∧ value (exLinear 1 1 w) x + gap < value (exLinear 1 1 w) z := by
  obtain ⟨r, st, h1, -, -, h3⟩ := C75_solve_partial Gap.exEnv Gap.exEnv_sqrt Real.exp_pos Iteration.ex_solves
    ⟨false, 1, Sup.realLlt, fun _ _ b => b, fun _ => 0⟩ Sup.realLlt_contract Sup.realLlt_complete rfl (exLinear 1 1 w)
    (exLinear_good _ 0 w).1 forced rfl (by norm_num [forced]) (by norm_num [forced])
    (by norm_num [forced]) (Or.inl rfl) status c
  have hret := exLinear_succeeds w status c h1
  obtain ⟨k, kMax, stats, bs, cs, z, -, -, -, -, -, -, -, h4, -⟩ := h3 hret
  refine ⟨r, z, h1, hret, h4, fun gap => ?_⟩
  obtain ⟨x, h5, h6⟩ := exLinear_unbounded w (value (exLinear 1 1 w) z - gap - 1)
  exact ⟨x, h5, by linarith⟩

end Verif.Whole
