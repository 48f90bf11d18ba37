import Verif.Lemmas.GapRun
import Verif.Lemmas.SolveFixed
import Verif.Props.Solve

/-!
# C71: the point returned is feasible and almost optimal

`y / (k c)` is the vector written to the caller's array after the last iteration, with `k` the barrier
parameter and `c` the scaling of the affine terms.
-/

namespace Verif.Gap

open Finset Dual Spec

/-! ### An example -/

/-- A system with `r` rows. -/
def sysr (r : Nat) : Schur.Sys ℝ := ⟨r, fun _ _ => 0, fun _ => 0, fun _ => 0, 0, 0⟩

/-- The system of an outcome. -/
def sysOf : Outcome (Schur.Sys ℝ) → Schur.Sys ℝ
  | .ok s => s
  | _ => sysr 0

/-- `y₀ ≤ 1` with scaling point 1, the equation `y₀ = 1/2` with multiplier `y₁`, and the cost `y₀² / 2`. -/
noncomputable def exEs : List (Entry ℝ) :=
  [⟨[0], .linear ⟨1, 1, fun _ _ => 1, fun _ => 1⟩ ⟨fun _ => 1, fun _ => 0, fun _ => 0⟩⟩,
   ⟨[0, 1], .equality ⟨1, 1, 1, fun _ _ => 1, fun _ => 1 / 2, fun _ => 0⟩⟩,
   ⟨[0], .cost 1 fun _ _ => 1⟩]

/-- The functions of the environment, as exact as they get. -/
noncomputable def exEnv : Env ℝ :=
  ⟨Real.sqrt, Real.exp, fun a _ => a, fun _ D M => D⁻¹ * M, fun _ _ => 0⟩

/-- The cost `3 y₀`. -/
noncomputable def exB (u : Nat) : ℝ := if u = 0 then 3 else 0
/-- The solution of the system. -/
noncomputable def exY (u : Nat) : ℝ := if u = 0 then 1 / 2 else 1

theorem forall_get {α : Type*} {l : List α} {P : Nat → α → Prop}
    (h : ∀ (i : Nat) (hi : i < l.length), P i l[i]) : ∀ (i : Nat) (e : α), l[i]? = some e → P i e := by
  intro i e he
  obtain ⟨hi, rfl⟩ := List.getElem?_eq_some_iff.1 he
  exact h i hi

theorem ex_system : System exEnv.sqrt 2 exB 1 1 1 exEs exY := by
  refine ⟨fun i => sysr ((exEs.map fun e => e.vars.length).getD i 0),
    fun i => sysOf (((exEs[i]?).map Entry.item).elim .ub fun x =>
      x.schur exEnv.sqrt (sysr ((exEs.map fun e => e.vars.length).getD i 0))), ?_, ?_, ?_⟩
  · refine forall_get fun i hi => ?_
    have : i = 0 ∨ i = 1 ∨ i = 2 := by simp [exEs] at hi; omega
    rcases this with rfl | rfl | rfl <;> rfl
  · refine forall_get fun i hi => ?_
    have : i = 0 ∨ i = 1 ∨ i = 2 := by simp [exEs] at hi; omega
    rcases this with rfl | rfl | rfl <;> rfl
  · intro u hu
    have : u = 0 ∨ u = 1 := by omega
    rcases this with rfl | rfl <;>
    simp [Sup.Spec.total, Sup.Spec.entry, Sup.Spec.ventry, exEs, List.range_succ, sum_range_succ, Item.schur,
      Linear.schur, Equality.schur, Equality.costSchur, sysOf, sysr, Schur.setTop, Schur.setTopLeft, Schur.Sys.setZero,
      Equality.setTopRight, Equality.setBottomLeft, Equality.setBottom, exB, exY, List.idxOf_cons]
    norm_num

theorem ex_step : ∃ es', Dual.prepareStep exEnv (1 * 1) 2 exY exEs = .ok (es', 1 / 2, 1 / 4) := by
  simp [Dual.prepareStep, Dual.prepareLoop, exEs, gather, Item.prepareStep, Linear.prepareStep, Linear.negativeSlack,
    Linear.maxCoeff, Equality.prepareStep, updateNorm, exY]
  norm_num [abs_of_pos]

theorem exEnv_sqrt (x : ℝ) (hx : 0 ≤ x) : SolveLoop.Spec.SqrtAt exEnv.sqrt x :=
  ⟨Real.sqrt_nonneg x, Real.mul_self_sqrt hx⟩

theorem ex_good : ∀ e ∈ exEs, Gap.Spec.Good e 2 := by
  intro e he
  simp only [exEs, List.mem_cons, List.not_mem_nil, or_false] at he
  rcases he with rfl | rfl | rfl
  · exact ⟨by decide, by decide, rfl, fun _ _ => one_pos⟩
  · exact ⟨by decide, by decide, rfl, rfl⟩
  · refine ⟨by decide, by decide, rfl, fun _ _ _ _ => rfl, fun x => ?_⟩
    simp
    exact mul_self_nonneg _

theorem ex_separate : Separate exEs exB := by
  intro i e o he ho r hr
  match i, he with
  | 0, he => simp only [exEs, List.getElem?_cons_zero, Option.some.injEq] at he; subst he; cases ho
  | 1, he =>
    simp only [exEs, List.getElem?_cons_succ, List.getElem?_cons_zero, Option.some.injEq] at he
    subst he
    cases ho
    obtain rfl : r = 0 := by simpa using hr
    refine ⟨by simp [exB], fun j e' hj hne => ?_⟩
    match j, hj with
    | 0, hj => simp only [exEs, List.getElem?_cons_zero, Option.some.injEq] at hj; subst hj; decide
    | 1, hj => exact absurd rfl hne
    | 2, hj =>
      simp only [exEs, List.getElem?_cons_succ, List.getElem?_cons_zero, Option.some.injEq] at hj
      subst hj
      decide
  | 2, he =>
    simp only [exEs, List.getElem?_cons_succ, List.getElem?_cons_zero, Option.some.injEq] at he
    subst he
    cases ho

theorem ex_bounded : ∀ e ∈ exEs, Bounded (1 * 1) (1 / 2) (fun j => exY (e.vars.getD j 0)) e.item := by
  intro e he
  simp only [exEs, List.mem_cons, List.not_mem_nil, or_false] at he
  rcases he with rfl | rfl | rfl <;> trivial

/-! ### Feasible and almost optimal -/

/-- One iteration: if `y` solves the linear system and the norm that is reported for the direction is at
most one, then the point is feasible, and its objective value is within `(rank - normsqrd) / (k² bs cs)`
of the largest value, which is the number `s_dot_x` of the code.  Any mix of linear inequalities,
second-order and quadratic cones, equations, convex quadratic costs, and real, complex and quaternion
matrix inequalities whose
direction is indeed within the norm.  Partial: the norm reported for a matrix inequality need not bound the
direction (F42), and matrix inequalities over octonions are excluded. -/
theorem C71_gap_partial (v : Env ℝ) (hv : ∀ x, 0 ≤ x → SolveLoop.Spec.SqrtAt v.sqrt x) (N : Nat)
    (y b : Nat → ℝ) (k bs cs : ℝ) (hk : 0 < k) (hbs : 0 < bs) (hcs : 0 < cs) (es : List (Entry ℝ))
    (hg : ∀ e ∈ es, Gap.Spec.Good e N) (hsep : Separate es b) (hy : System v.sqrt N b k bs cs es y)
    (es' : List (Entry ℝ)) (A B : ℝ) (hp : Dual.prepareStep v (k * cs) N y es = .ok (es', A, B))
    (hA : A ≤ 1) (hex : ∀ e ∈ es, Bounded (k * cs) A (fun j => y (e.vars.getD j 0)) e.item) :
    Feasible es (fun u => y u / (k * cs)) ∧ ∀ z, Feasible es z →
      objective N b (cs / bs) es z ≤ objective N b (cs / bs) es (fun u => y u / (k * cs)) +
        (rank es - B) / (k ^ 2 * bs * cs) := by
  obtain ⟨s₀, s, h0, hs, hy⟩ := hy
  exact program_gap hv hk hbs hcs hg hsep h0 hs hy hp hA hex

example : Feasible exEs (fun u => exY u / (1 * 1)) ∧ ∀ z, Feasible exEs z →
    objective 2 exB (1 / 1) exEs z ≤ objective 2 exB (1 / 1) exEs (fun u => exY u / (1 * 1)) +
      (rank exEs - 1 / 4) / (1 ^ 2 * 1 * 1) := by
  obtain ⟨es', h⟩ := ex_step
  exact C71_gap_partial exEnv exEnv_sqrt 2 exY exB 1 1 1 one_pos one_pos one_pos exEs ex_good ex_separate
    ex_system es' (1 / 2) (1 / 4) h (by norm_num) ex_bounded

/-! ### The iterations of a solve -/

/-- Options: the barrier parameter is fixed at `K`; the others as by default, except that there is no
rescaling. -/
noncomputable def exOptions (K tol : ℝ) (line : Bool) : SolveLoop.Config ℝ :=
  { prepareDual := false, mode := 0, invSqrtMuMax := K, maximumMu := 1 / (K * K) - 1 / 10 ^ 15,
    lineSearch := line, finalSteps := 5, finalTol := tol, initWarm := 0, initCold := 0,
    warmAbort := 2, maxIter := 25, infeasThreshold := 10 ^ 5, kktTol := 10 ^ 10, rescaling := false }

theorem exOptions_fixed {sqrt : ℝ → ℝ} (hv : ∀ x, 0 ≤ x → SolveLoop.Spec.SqrtAt sqrt x) {K : ℝ} (hK : 0 < K)
    (tol : ℝ) (line : Bool) : SolveLoop.Fixed sqrt (exOptions K tol line) K where
  pos := hK
  min := by
    unfold SolveLoop.kMin exOptions
    simp only
    rw [add_sub_cancel, one_div_one_div]
    obtain ⟨h1, h2⟩ := hv (K * K) (mul_self_nonneg K)
    nlinarith [mul_self_nonneg (sqrt (K * K) - K), mul_self_eq_mul_self_iff.1 h2]
  max := rfl
  mode := rfl
  rescaling := rfl
  cold := rfl
  kkt := by unfold exOptions; norm_num
  iters := by unfold exOptions; norm_num

/-- A program that was never solved. -/
def exProgram (q : Bool) (n : Nat) : SolveLoop.Prog ℝ :=
  { quadratic := q, constraints := n, initialized := false, stats := none,
    status := ⟨false, none, false, false⟩ }

/-- The iterations of a solve, from scaling points inside the cones: they stay there, and if the last norm
is at most one then the point is feasible and almost optimal for the constraints given at the start. -/
theorem C71_run_partial (v : Env ℝ) (hv : ∀ x, 0 ≤ x → SolveLoop.Spec.SqrtAt v.sqrt x)
    (he : ∀ x, 0 < v.exp x) (hs : ∀ n, MatrixExp.Spec.Solves (v.solve n)) (N : Nat) (b : Nat → ℝ)
    (bs cs : ℝ) (hbs : 0 < bs) (hcs : 0 < cs) (k norm : Nat → ℝ) (j : Nat) (hk : 0 < k j)
    (es : Nat → List (Entry ℝ)) (y : Nat → Nat → ℝ) (hr : Run v N b bs cs k norm j es y)
    (hg : ∀ e ∈ es 0, Gap.Spec.Good e N) (hsep : Separate (es 0) b)
    (hb : ∀ i ≤ j, ∀ e ∈ es i, Bounded (k i * cs) (norm i) (fun l => y i (e.vars.getD l 0)) e.item)
    (hn : norm j ≤ 1) :
    Feasible (es 0) (fun u => y j u / (k j * cs)) ∧
    ∃ es' B, Dual.prepareStep v (k j * cs) N (y j) (es j) = .ok (es', norm j, B) ∧
      ∀ z, Feasible (es 0) z →
        objective N b (cs / bs) (es 0) z ≤ objective N b (cs / bs) (es 0) (fun u => y j u / (k j * cs)) +
          (rank (es 0) - B) / (k j ^ 2 * bs * cs) := by
  obtain ⟨h1, h2⟩ := run_good hv he hs hr hg (fun i hi => hb i hi.le) j le_rfl
  obtain ⟨h3, es', B, h4, -⟩ := hr j le_rfl
  obtain ⟨h5, h6⟩ := C71_gap_partial v hv N (y j) b (k j) bs cs hk hbs hcs (es j) h1 (h2.separate hsep)
    h3 es' (norm j) B h4 hn (hb j le_rfl)
  refine ⟨(h2.feasible _).1 h5, es', B, h4, fun z hz => ?_⟩
  have := h6 z ((h2.feasible z).2 hz)
  rwa [h2.objective, h2.objective, h2.rank] at this

theorem ex_run : Run exEnv 2 exB 1 1 (fun _ => 1) (fun _ => 1 / 2) 0 (fun _ => exEs) fun _ => exY := by
  intro i hi
  obtain ⟨es', h⟩ := ex_step
  exact ⟨ex_system, es', 1 / 4, h, fun h => by omega⟩

example : Feasible exEs (fun u => exY u / (1 * 1)) :=
  (C71_run_partial exEnv exEnv_sqrt Real.exp_pos
    (fun n D M h => by
      show D * (D⁻¹ * M) = M
      rw [← Matrix.mul_assoc, Matrix.mul_nonsing_inv D h, Matrix.one_mul]) 2 exB 1 1 one_pos one_pos
    (fun _ => 1) (fun _ => 1 / 2) 0 one_pos (fun _ => exEs) (fun _ => exY) ex_run ex_good ex_separate
    (fun _ _ => ex_bounded) (by norm_num)).1

/-- The solve: if it reports success, and its last direction was within the tolerance, which is at most
one, then what it returns is feasible and almost optimal.  The oracles of the loop are those of the
iterations `Run`, as far as they are mentioned. -/
theorem C71_solve_partial (v : Env ℝ) (hv : ∀ x, 0 ≤ x → SolveLoop.Spec.SqrtAt v.sqrt x)
    (he : ∀ x, 0 < v.exp x) (hs : ∀ n, MatrixExp.Spec.Solves (v.solve n)) (p : SolveLoop.Prog ℝ)
    (cfg : SolveLoop.Config ℝ) (o : SolveLoop.Oracle ℝ) (r : SolveLoop.Result ℝ)
    (hmu : 0 ≤ 1 / 10 ^ 15 + cfg.maximumMu)
    (ha : p.quadratic = false ∨ (cfg.lineSearch = true ∧ cfg.rescaling = false))
    (htol : cfg.finalTol ≤ 1) (h : SolveLoop.solve v.sqrt p cfg o = .ok r) (hret : r.ret = true)
    (j : Nat) (kf cs : ℝ) (hout : r.out = .scaled (some j) kf cs) (hcs : 0 < cs) (bs : ℝ) (hbs : 0 < bs)
    (hj : |o.norm j| ≤ cfg.finalTol) (N : Nat) (b : Nat → ℝ) (k : Nat → ℝ) (hkj : k j = kf)
    (es : Nat → List (Entry ℝ)) (y : Nat → Nat → ℝ) (hr : Run v N b bs cs k o.norm j es y)
    (hg : ∀ e ∈ es 0, Gap.Spec.Good e N) (hsep : Separate (es 0) b)
    (hb : ∀ i ≤ j, ∀ e ∈ es i, Bounded (k i * cs) (o.norm i) (fun l => y i (e.vars.getD l 0)) e.item) :
    Feasible (es 0) (fun u => y j u / (kf * cs)) ∧
    ∃ es' B, Dual.prepareStep v (kf * cs) N (y j) (es j) = .ok (es', o.norm j, B) ∧
      ∀ z, Feasible (es 0) z →
        objective N b (cs / bs) (es 0) z ≤ objective N b (cs / bs) (es 0) (fun u => y j u / (kf * cs)) +
          (rank (es 0) - B) / (kf ^ 2 * bs * cs) := by
  have hk0 : 0 ≤ SolveLoop.kMin v.sqrt cfg := (hv _ (one_div_nonneg.2 hmu)).1
  have hpos : 0 < kf := by
    have hC := SolveLoop.C26_success hk0 ha h
    obtain ⟨⟨i, k', -, -, -, hne, -, -, c, hc⟩, -⟩ := hC.2.1 hret
    have hcn : p.constraints ≠ 0 := by
      intro hz
      unfold SolveLoop.solve at h
      have hz' : (SolveLoop.clearStatus p).constraints = 0 := hz
      rw [if_neg (not_not.2 ha)] at h
      simp only [hz', if_true, Outcome.ok.injEq] at h
      subst h
      simp at hret
    obtain ⟨p', st, -, -, -, -, c', s, hl, hcase⟩ := SolveLoop.solve_ok ha hcn h
    rcases hcase with ⟨rfl, rfl⟩ | ⟨rfl, rfl⟩ | ⟨rfl, hp⟩
    · cases hret
    · cases hout
    · obtain ⟨i', -, hI, -⟩ := SolveLoop.exit_loop hk0 hl
      obtain ⟨n', -, -, -, -, -, -, ho⟩ := SolveLoop.post_ok hp
      rcases ho with ⟨-, ho⟩ | ⟨-, c'', -, ho⟩
      · rw [hout] at ho
        cases ho
      · rw [hout] at ho hc
        simp only [SolveLoop.Output.scaled.injEq] at ho hc
        obtain ⟨-, rfl, -⟩ := hc
        have hy := hI.y
        rw [← ho.1] at hy
        have h5 := (hI.onSome j hy.symm).2.2.2.2.1
        rw [← ho.2.1] at h5
        exact lt_of_le_of_ne (hk0.trans h5) (Ne.symm hne)
  subst hkj
  exact C71_run_partial v hv he hs N b bs cs hbs hcs k o.norm j hpos es y hr hg hsep hb
    ((le_abs_self _).trans (hj.trans htol))

/-- The solve of the example stops after one iteration, with the tolerance 1. -/
example (o : SolveLoop.Oracle ℝ) (h1 : ∀ i, o.factorOk i = true) (h2 : ∀ i, o.kkt i = 0)
    (h3 : o.norm = fun _ => 1 / 2) :
    ∃ r, SolveLoop.solve exEnv.sqrt (exProgram true 3) (exOptions 1 1 true) o = .ok r ∧
      r.out = .scaled (some 0) 1 1 ∧ Feasible exEs (fun u => exY u / (1 * 1)) := by
  obtain ⟨r, h4, h5, h6⟩ := SolveLoop.fixed_solve (o := o) (exOptions_fixed exEnv_sqrt one_pos 1 true) 5 rfl
    (p := exProgram true 3) (Or.inr rfl) (by decide) h1 (fun i => by rw [h2 i]; norm_num [exOptions])
    (by norm_num [exOptions]) 0 (Or.inl ⟨rfl, by rw [h3]; norm_num [exOptions, abs_of_pos]⟩)
  refine ⟨r, h4, h6, (C71_solve_partial exEnv exEnv_sqrt Real.exp_pos
    (fun n D M h => by
      show D * (D⁻¹ * M) = M
      rw [← Matrix.mul_assoc, Matrix.mul_nonsing_inv D h, Matrix.one_mul])
    (exProgram true 3) (exOptions 1 1 true) o r (by norm_num [exOptions]) (Or.inr ⟨rfl, rfl⟩)
    (by norm_num [exOptions]) h4 h5 0 1 1 h6 one_pos 1 one_pos (by rw [h3]; norm_num [exOptions, abs_of_pos])
    2 exB (fun _ => 1) rfl (fun _ => exEs) (fun _ => exY) (by rw [h3]; exact ex_run) ex_good ex_separate
    (fun i _ => by rw [h3]; exact ex_bounded)).1⟩

/-! ### Points that are not feasible -/

/-- The constraint `y ≤ 0`. -/
def badCon : Linear.Con ℝ := ⟨1, 1, fun _ _ => 1, fun _ => 0⟩

/-- The direction at the scaling point `x`, for the barrier parameter 1000. -/
noncomputable def badDir (x : ℝ) : ℝ := 1000 / x - 1

/-- The scaling point before iteration `i`. -/
noncomputable def badW : Nat → ℝ
  | 0 => 1
  | i + 1 => badW i * Real.exp (badDir (badW i) * SolveLoop.stepSize (badDir (badW i)))

/-- The workspace before iteration `i`; in the first one, after `SetIdentity`. -/
noncomputable def badWs : Nat → Linear.Ws ℝ
  | 0 => ⟨fun _ => 1, fun _ => 0, fun _ => 0⟩
  | i + 1 => ⟨fun _ => badW (i + 1), fun _ => 0,
      fun _ => Real.exp (badDir (badW i) * SolveLoop.stepSize (badDir (badW i)))⟩

theorem badWs_W (i : Nat) : (badWs i).W = fun _ => badW i := by
  cases i <;> rfl

theorem badWs_temp (i : Nat) : (badWs i).temp1 = fun _ => 0 := by
  cases i <;> rfl

theorem stepSize_pos {d : ℝ} (hd : 2 ≤ d) : SolveLoop.stepSize d = 2 / (d * d) := by
  unfold SolveLoop.stepSize
  have h : 2 / (d * d) ≤ 1 := by
    rw [div_le_one (by positivity)]
    nlinarith
  rw [if_neg (by linarith), if_neg (not_lt.2 h)]

theorem badW_bounds (i : Nat) (hi : i ≤ 5) : 1 ≤ badW i ∧ badW i ≤ 2 ^ i := by
  induction i with
  | zero => exact ⟨le_refl _, by simp [badW]⟩
  | succ i ih =>
    obtain ⟨h1, h2⟩ := ih (by omega)
    have h3 : (2 : ℝ) ^ i ≤ 2 ^ 4 := pow_le_pow_right₀ (by norm_num) (by omega)
    have h4 : 60 ≤ badDir (badW i) := by
      unfold badDir
      rw [le_sub_iff_add_le, le_div_iff₀ (by linarith)]
      linarith
    have hs := stepSize_pos (d := badDir (badW i)) (by linarith)
    set d := badDir (badW i) with hd
    have h5 : d * SolveLoop.stepSize d = 2 / d := by
      rw [hs]
      have : d ≠ 0 := by linarith
      field_simp
    have h6 : 0 ≤ 2 / d ∧ 2 / d ≤ 1 / 2 := by
      refine ⟨div_nonneg (by norm_num) (by linarith), ?_⟩
      rw [div_le_iff₀ (by linarith)]
      linarith
    have h7 : 1 ≤ Real.exp (2 / d) := Real.one_le_exp h6.1
    have h8 : Real.exp (2 / d) ≤ 2 := by
      have h9 := Real.add_one_le_exp (-(2 / d))
      rw [Real.exp_neg] at h9
      have h10 := Real.exp_pos (2 / d)
      have h11 : 1 / 2 ≤ (Real.exp (2 / d))⁻¹ := by linarith
      rw [← one_div, div_le_div_iff₀ (by norm_num) h10] at h11
      linarith
    have e : badW (i + 1) = badW i * Real.exp (2 / d) := by
      rw [← h5]
      rfl
    rw [e, pow_succ]
    exact ⟨by nlinarith, mul_le_mul h2 h8 (by linarith) (by positivity)⟩

theorem badDir_ge (i : Nat) (hi : i ≤ 5) : 30 ≤ badDir (badW i) := by
  obtain ⟨h1, h2⟩ := badW_bounds i hi
  have h3 : (2 : ℝ) ^ i ≤ 2 ^ 5 := pow_le_pow_right₀ (by norm_num) hi
  unfold badDir
  rw [le_sub_iff_add_le, le_div_iff₀ (by linarith)]
  linarith

/-- The constraint before iteration `i`. -/
noncomputable def badEs (i : Nat) : List (Entry ℝ) := [⟨[0], .linear badCon (badWs i)⟩]

/-- The solution of the linear system. -/
noncomputable def badY (i : Nat) : Nat → ℝ := fun _ => 1000 / (badW i * badW i) - 2 / badW i

theorem bad_run (v : Env ℝ) (hv : v.exp = Real.exp) :
    Run v 1 (fun _ => 1) 1 1 (fun _ => 1000) (fun i => badDir (badW i)) 5 badEs badY := by
  intro i hi
  obtain ⟨h1, h2⟩ := badW_bounds i hi
  have h3 := badDir_ge i hi
  have hne : badW i ≠ 0 := by linarith
  refine ⟨⟨fun _ => sysr 1, fun _ => sysOf (Linear.schur badCon (badWs i).W true (sysr 1)), ?_, ?_, ?_⟩, ?_⟩
  · refine forall_get fun j hj => ?_
    obtain rfl : j = 0 := by simpa [badEs] using hj
    rfl
  · refine forall_get fun j hj => ?_
    obtain rfl : j = 0 := by simpa [badEs] using hj
    rfl
  · intro u hu
    obtain rfl : u = 0 := by omega
    simp [Sup.Spec.total, Sup.Spec.entry, Sup.Spec.ventry, badEs, List.range_succ, Linear.schur, sysOf, sysr,
      Schur.setTop, Schur.setTopLeft, badCon, badWs_W, badY]
    field_simp
  · have hd : badY i 0 * badW i + 1 = badDir (badW i) := by
      unfold badY badDir
      field_simp
      ring
    refine ⟨[⟨[0], .linear badCon ⟨(badWs i).W, (badWs i).temp1, fun r => badDir (badW i)⟩⟩],
      badDir (badW i) * badDir (badW i), ?_, fun hlt => ?_⟩
    · have hy : ∀ u, badY i u = badY i 0 := fun _ => rfl
      simp [Dual.prepareStep, Dual.prepareLoop, badEs, gather, Item.prepareStep, Linear.prepareStep,
        Linear.negativeSlack, Linear.maxCoeff, updateNorm, badCon, badWs_W, hd]
      rw [abs_of_nonneg (by linarith), if_pos (by linarith)]
    · have h4 : SolveLoop.stepSize (badDir (badW i)) ≠ 1 := by
        rw [stepSize_pos (by linarith)]
        have : 2 / (badDir (badW i) * badDir (badW i)) < 1 := by
          rw [div_lt_one (by nlinarith)]
          nlinarith
        exact this.ne
      simp only [Dual.takeStep, Item.takeStep, Linear.takeStep, Bool.false_eq_true, if_false, h4, hv,
        Outcome.bind_ok, badEs, badWs_W, badWs_temp]
      rfl

/-- C71 fails when the solve stops because the number of centering steps is used up, whatever the norm: it
reports success and a point that is not feasible.  The options are the default ones, except that the barrier
parameter may not exceed its final value, 10⁻⁶, and that there is no rescaling.  Maximised is `y` subject
to `y ≤ 0`. -/
theorem C71_count_violated (v : Env ℝ) (hv : ∀ x, 0 ≤ x → SolveLoop.Spec.SqrtAt v.sqrt x)
    (he : v.exp = Real.exp) (o : SolveLoop.Oracle ℝ) (h1 : ∀ i, o.factorOk i = true)
    (h2 : ∀ i, o.kkt i ≤ 10 ^ 10) (h3 : o.norm = fun i => badDir (badW i)) :
    (∀ e ∈ badEs 0, Gap.Spec.Good e 1) ∧
    Run v 1 (fun _ => 1) 1 1 (fun _ => 1000) o.norm 5 badEs badY ∧
    ∃ r, SolveLoop.solve v.sqrt (exProgram false 1) (exOptions 1000 (1 / 100) false) o = .ok r ∧
      r.ret = true ∧ r.out = .scaled (some 5) 1000 1 ∧
      ¬ Feasible (badEs 0) (fun u => badY 5 u / (1000 * 1)) := by
  refine ⟨?_, by rw [h3]; exact bad_run v he, ?_⟩
  · intro e he
    simp only [badEs, List.mem_singleton] at he
    subst he
    exact ⟨by decide, by decide, rfl, fun _ _ => one_pos⟩
  have hno : ∀ i ≤ 5, ¬|o.norm i| ≤ (exOptions 1000 (1 / 100) false).finalTol := by
    intro i hi
    have h7 := badDir_ge i hi
    rw [h3]
    simp only [exOptions]
    rw [abs_of_nonneg (by linarith)]
    linarith
  obtain ⟨r, h4, h5, h6⟩ := SolveLoop.fixed_solve (o := o)
    (exOptions_fixed hv (by norm_num : (0 : ℝ) < 1000) (1 / 100) false) 5 rfl
    (p := exProgram false 1) (Or.inl rfl) (by decide) h1 h2 (by norm_num [exOptions]) 5 (Or.inr ⟨rfl, hno⟩)
  refine ⟨r, h4, h5, h6, fun hf => ?_⟩
  have h7 : badY 5 0 / (1000 * 1) ≤ 0 := by
    have := hf _ List.mem_cons_self 0 (by decide : 0 < badCon.n)
    simpa [badCon] using this
  obtain ⟨h8, h9⟩ := badW_bounds 5 le_rfl
  have h10 : 0 < badY 5 0 := by
    unfold badY
    rw [sub_pos, div_lt_div_iff₀ (by linarith) (by nlinarith)]
    nlinarith
  have : 0 < badY 5 0 / (1000 * 1) := by positivity
  linarith

/-- The constraint `[[-y, -1], [-1, 1/1000 - y]]` positive semidefinite. -/
noncomputable def badLmi : Lmi.Con 2 ℝ := ⟨1, fun _ => 1, !![0, -1; -1, 1 / 1000]⟩

/-- The constraint in the first iteration. -/
noncomputable def badLmiEs : List (Entry ℝ) := [⟨[0], .lmi 2 badLmi ⟨1, 0⟩⟩]

theorem tri_singleton {tri : List ℝ → List ℝ → List ℝ} (htri : Lmi.Spec.TriEigenvalues tri) (a : ℝ) :
    tri [a] [] ≠ [] ∧ ∀ t ∈ tri [a] [], t = a := by
  obtain ⟨hne, ht⟩ := htri [a] [] (by simp) rfl
  refine ⟨hne, fun t h => ?_⟩
  obtain ⟨u, hu, he⟩ := ht t h
  have := congrFun he (0 : Fin 1)
  simp only [Matrix.mulVec, dotProduct, Lmi.Spec.jacobi, List.length_singleton, univ_unique,
    Fin.default_eq_zero, sum_singleton, if_true, Pi.smul_apply, smul_eq_mul, Fin.val_zero,
    List.getD_cons_zero] at this
  have hv0 : u (0 : Fin 1) ≠ 0 := fun h0 => hu (funext fun j => by
    obtain rfl : j = (0 : Fin 1) := Subsingleton.elim (α := Fin 1) j 0
    exact h0)
  exact (mul_right_cancel₀ hv0 this).symm

theorem badLmi_slack : (1 : Lmi.Mat 2 ℝ) * -Lmi.Spec.slack badLmi (1000 * 1) (fun _ => 0) = !![0, 1000; 1000, -1] := by
  ext a b
  fin_cases a <;> fin_cases b <;> norm_num [badLmi, Lmi.Spec.slack]

theorem badLmi_prepare (v : Env ℝ) (hv : ∀ x, 0 ≤ x → SolveLoop.Spec.SqrtAt v.sqrt x)
    (htri : Lmi.Spec.TriEigenvalues v.tri) :
    ∃ w' β, Lmi.prepareStep v.sqrt v.tri badLmi (1000 * 1) 1 1 (fun _ => 0) ⟨1, 0⟩ = .ok (w', some 0, β) := by
  have harg : Lmi.argmaxDiag (!![0, 1000; 1000, -1] : Lmi.Mat 2 ℝ) = some 0 := by
    have : ¬((0 : ℝ) < -1) := by norm_num
    simp only [Lmi.argmaxDiag, List.finRange_succ, List.finRange_zero, List.map_nil, List.map_cons,
      List.foldl_cons, List.foldl_nil]
    simp
  have hq : Lanczos.lanczos v.sqrt (!![0, 1000; 1000, -1] : Lmi.Mat 2 ℝ) 1
      (fun r => (!![0, 1000; 1000, -1] : Lmi.Mat 2 ℝ) r 0) (2 / 2) = some ([-1], []) := by
    have hr : (fun r => (!![0, 1000; 1000, -1] : Lmi.Mat 2 ℝ) r 0) = ![0, 1000] := by
      funext r
      fin_cases r <;> simp
    obtain ⟨h0, h1⟩ := hv (1000 * 1000) (by norm_num)
    have hs' : v.sqrt (1000 * 1000) = 1000 := by nlinarith [mul_self_eq_mul_self_iff.1 h1]
    have hin : Lanczos.inner (⟨(1 : Lmi.Mat 2 ℝ).mulVec ![0, 1000], ![0, 1000]⟩ : Lanczos.Pair (Fin 2) ℝ)
        ⟨(1 : Lmi.Mat 2 ℝ).mulVec ![0, 1000], ![0, 1000]⟩ = 1000 * 1000 := by
      simp [Lanczos.inner, Matrix.one_mulVec, dotProduct, Fin.sum_univ_two]
    unfold Lanczos.lanczos
    rw [hr]
    simp only [hin, hs']
    rw [if_neg (by norm_num)]
    simp [Lanczos.loop, Lanczos.inner, Lanczos.divBy, Lanczos.apply, dotProduct, Matrix.mulVec]
  obtain ⟨hne, ht'⟩ := tri_singleton htri (-1)
  obtain ⟨q, hex⟩ := Lmi.extremes_ne_none hne
  obtain ⟨l', hl', hq1, hq2, -⟩ := Lmi.extremes_some hex
  obtain rfl := Option.some.inj hl'
  have h1 := ht' _ hq1
  have h2 := ht' _ hq2
  have hap : Lanczos.approxEigenvalues v.sqrt v.tri (!![0, 1000; 1000, -1] : Lmi.Mat 2 ℝ) 1
      (fun r => (!![0, 1000; 1000, -1] : Lmi.Mat 2 ℝ) r 0) (2 / 2) = some (v.tri [-1] []) := by
    unfold Lanczos.approxEigenvalues
    rw [if_neg (by norm_num), hq]
    rfl
  unfold Lmi.prepareStep
  rw [Lmi.negativeSlack_eq badLmi (1000 * 1) (le_refl 1 : badLmi.m ≤ 1)]
  simp only [Outcome.bind_ok, badLmi_slack, harg, hap, Option.map_some, hex, h1, h2, lt_irrefl, if_false]
  exact ⟨_, _, by simp; exact ⟨rfl, rfl⟩⟩

/-- C71 fails for matrix inequalities even when the solve stops by its norm test: in the first iteration the
norm reported is zero (F42), the solve reports success, and the point returned is not feasible, by far.
Options as before.  Maximised is `3/1000 y`. -/
theorem C71_norm_violated (v : Env ℝ) (hv : ∀ x, 0 ≤ x → SolveLoop.Spec.SqrtAt v.sqrt x)
    (htri : Lmi.Spec.TriEigenvalues v.tri) (o : SolveLoop.Oracle ℝ) (h1 : ∀ i, o.factorOk i = true)
    (h2 : ∀ i, o.kkt i ≤ 10 ^ 10) (h3 : o.norm = fun _ => 0) :
    (∀ e ∈ badLmiEs, Gap.Spec.Good e 1) ∧
    Run v 1 (fun _ => 3 / 1000) 1 1 (fun _ => 1000) o.norm 0 (fun _ => badLmiEs) (fun _ _ => 0) ∧
    ∃ r, SolveLoop.solve v.sqrt (exProgram false 1) (exOptions 1000 (1 / 100) false) o = .ok r ∧
      r.ret = true ∧ r.out = .scaled (some 0) 1000 1 ∧
      ¬ Feasible badLmiEs (fun _ => 0 / (1000 * 1)) := by
  have hsym : Lmi.Spec.Symmetric badLmi := by
    refine ⟨fun i _ => Matrix.transpose_one, ?_⟩
    ext a b
    fin_cases a <;> fin_cases b <;> simp [badLmi]
  refine ⟨?_, ?_, ?_⟩
  · intro e he
    simp only [badLmiEs, List.mem_singleton] at he
    subst he
    exact ⟨by decide, by decide, rfl, hsym, Matrix.PosDef.one⟩
  · intro i hi
    refine ⟨⟨fun _ => sysr 1, fun _ => sysOf (Lmi.schur badLmi 1 true (sysr 1)), ?_, ?_, ?_⟩, ?_⟩
    · refine forall_get fun j hj => ?_
      obtain rfl : j = 0 := by simpa [badLmiEs] using hj
      rfl
    · refine forall_get fun j hj => ?_
      obtain rfl : j = 0 := by simpa [badLmiEs] using hj
      rfl
    · intro u hu
      obtain rfl : u = 0 := by omega
      simp [Sup.Spec.total, Sup.Spec.entry, Sup.Spec.ventry, badLmiEs, List.range_succ, Lmi.schur, sysOf, sysr,
        badLmi, Lmi.traceInner, Fin.sum_univ_two]
      norm_num
    · obtain ⟨w', β, h⟩ := badLmi_prepare v hv htri
      refine ⟨[⟨[0], .lmi 2 badLmi w'⟩], 0 + β, ?_, fun h => by omega⟩
      simp [Dual.prepareStep, Dual.prepareLoop, badLmiEs, gather, Item.prepareStep, updateNorm, h3]
      rw [mul_one] at h
      simp [h]
  obtain ⟨r, h4, h5, h6⟩ := SolveLoop.fixed_solve (o := o)
    (exOptions_fixed hv (by norm_num : (0 : ℝ) < 1000) (1 / 100) false) 5 rfl
    (p := exProgram false 1) (Or.inl rfl) (by decide) h1 h2 (by norm_num [exOptions]) 0
    (Or.inl ⟨rfl, by rw [h3]; norm_num [exOptions]⟩)
  refine ⟨r, h4, h5, h6, fun hf => ?_⟩
  have h7 : (badLmi.C - ∑ j ∈ range badLmi.m, ((0 : ℝ) / (1000 * 1)) • badLmi.A j).PosSemidef :=
    hf _ List.mem_cons_self
  have h8 := h7.dotProduct_mulVec_nonneg ![1, 1]
  simp [badLmi, Matrix.mulVec, dotProduct, Fin.sum_univ_two] at h8
  norm_num at h8

end Verif.Gap
