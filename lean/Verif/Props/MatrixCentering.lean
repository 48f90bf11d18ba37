import Verif.Lemmas.MatrixCentering
import Verif.Props.ConeCentering

/-!
# C95: iterations close to a central point, for matrix inequalities too

The norm that is reported for a matrix inequality is an estimate by the Lanczos method, which may be too small (F42), so
that C71 and C74 assume that it bounds the direction.  The sum of squares that is reported beside it (`normsqrd`) is exact:
it is a trace.  Hence, if it is at most one, everything can be said without further assumptions, for any mixture of real,
complex and quaternion matrix inequalities, linear inequalities, second-order and quadratic cones and convex quadratic
costs.  The steps in matrix inequalities are rational or polynomial approximations of the exponential, and converge
quadratically like the exponential.
-/

namespace Verif.MatrixCentering

open Finset Verif.Dual Iteration.Spec
open Gap.Spec (Feasible objective System Separate)
open Spec (ConeProgram)

/-- One iteration, also with equations: if `y` solves the linear system and the sum of squares that is reported for the
direction is at most one, then the point is feasible, and its objective value is within `(rank - normsqrd) / (k² bs cs)` of
the largest value.  Unlike in C71, nothing is assumed of the norm that is reported. -/
theorem C95_gap (v : Env ℝ) (hv : ∀ x, 0 ≤ x → SolveLoop.Spec.SqrtAt v.sqrt x) (hexp : v.exp = Real.exp)
    (ht : Lmi.Spec.TriEigenvalues v.tri) (N : Nat)
    (y b : Nat → ℝ) (k bs cs : ℝ) (hk : 0 < k) (hbs : 0 < bs) (hcs : 0 < cs) (es : List (Entry ℝ))
    (hg : ∀ e ∈ es, Gap.Spec.Good e N) (hsep : Separate es b) (hy : System v.sqrt N b k bs cs es y)
    (es' : List (Entry ℝ)) (A B : ℝ) (hp : Dual.prepareStep v (k * cs) N y es = .ok (es', A, B)) (hB : B ≤ 1) :
    Feasible es (fun u => y u / (k * cs)) ∧ ∀ z, Feasible es z →
      objective N b (cs / bs) es z ≤ objective N b (cs / bs) es (fun u => y u / (k * cs)) +
        (rank es - B) / (k ^ 2 * bs * cs) := by
  obtain ⟨-, h, -⟩ := program_direction hv hexp ht hg hp
  obtain ⟨h1, h2⟩ := h hB
  obtain ⟨s₀, s, h0, hs, hy⟩ := hy
  exact Gap.program_gap_of hv hk hbs hcs hg hsep h0 hs hy hp (by nlinarith) le_rfl h2

/-- Quadratic convergence: after a direction whose sum of squares is at most one, that of the next one is at most twice its
square. -/
theorem C95_quadratic (v : Env ℝ) (hv : ∀ x, 0 ≤ x → SolveLoop.Spec.SqrtAt v.sqrt x) (hexp : v.exp = Real.exp)
    (ht : Lmi.Spec.TriEigenvalues v.tri) (hs : ∀ n, MatrixExp.Spec.Solves (v.solve n)) (p : Iteration.Setup ℝ)
    (duals : List (List Nat)) (x x' x'' : Iteration.State ℝ) (hr : Ready p duals x) (k : ℝ) (st st' : Iteration.Step ℝ)
    (h : Iteration.iterate v p k x = .ok (some (st, x')))
    (h' : Iteration.iterate v p k x' = .ok (some (st', x''))) (hn : st.normsqrd ≤ 1) :
    st'.normsqrd ≤ 2 * st.normsqrd ^ 2 := by
  have he : ∀ x, 0 < v.exp x := fun x => hexp ▸ Real.exp_pos x
  obtain ⟨hr', -⟩ := ready_next hv hexp ht hs hr h hn
  obtain ⟨-, -, -, -, es', -, -, -, -, -, -, -, h3, h4, -⟩ := Iteration.iterate_ok h
  obtain ⟨-, -, -, -, es₁, -, -, -, -, -, -, -, h5, -, -⟩ := Iteration.iterate_ok h'
  exact program_quadratic hv hexp ht hs hr.good hr.usable hr'.good hr'.usable h3 hn h4 h5
    (system hr h (Centering.unregularized hv he hr h)) (system hr' h' (Centering.unregularized hv he hr' h'))

/-- From a start whose first direction has a sum of squares of at most `1/4`: all iterations are defined and take full
steps, the sums of squares decrease doubly exponentially, and every point is feasible and optimal up to the gap of the
barrier parameter. -/
theorem C95_local (v : Env ℝ) (hv : ∀ x, 0 ≤ x → SolveLoop.Spec.SqrtAt v.sqrt x) (hexp : v.exp = Real.exp)
    (ht : Lmi.Spec.TriEigenvalues v.tri) (hs : ∀ n, MatrixExp.Spec.Solves (v.solve n)) (p : Iteration.Setup ℝ)
    (hbs : 0 < p.bs) (hcs : 0 < p.cs) (duals : List (List Nat)) (x₀ x₁ : Iteration.State ℝ) (hr : Ready p duals x₀) (k : ℝ)
    (hk : 0 < k) (st₀ : Iteration.Step ℝ) (h : Iteration.iterate v p k x₀ = .ok (some (st₀, x₁)))
    (hn : st₀.normsqrd ≤ 1 / 4) :
    ∃ (X : Nat → Iteration.State ℝ) (ST : Nat → Iteration.Step ℝ), X 0 = x₀ ∧ ST 0 = st₀ ∧
      ∀ l, Iteration.iterate v p k (X l) = .ok (some (ST l, X (l + 1))) ∧ SolveLoop.stepSize (ST l).norm = 1 ∧
        0 ≤ (ST l).normsqrd ∧ (ST l).normsqrd ≤ 1 / 2 * (1 / 2) ^ 2 ^ l ∧
        Feasible x₀.es (fun u => (ST l).y u / (k * p.cs)) ∧ ∀ z, Feasible x₀.es z →
          objective p.N p.b (p.cs / p.bs) x₀.es z ≤
            objective p.N p.b (p.cs / p.bs) x₀.es (fun u => (ST l).y u / (k * p.cs)) +
              (rank x₀.es - (ST l).normsqrd) / (k ^ 2 * p.bs * p.cs) := by
  have he : ∀ x, 0 < v.exp x := fun x => hexp ▸ Real.exp_pos x
  -- the iterations, as long as they are close
  let Close := {x : Iteration.State ℝ // Ready p duals x ∧ Gap.SameProg x₀.es x.es ∧
    ∀ st x', Iteration.iterate v p k x = .ok (some (st, x')) → st.normsqrd ≤ 1 / 4}
  have next : ∀ x : Close, ∃ q : Iteration.Step ℝ × Close, Iteration.iterate v p k x.1 = .ok (some (q.1, q.2.1)) := by
    intro ⟨x, h1, h2, h3⟩
    obtain ⟨st, x', h4, -⟩ := Iteration.iterate_total hv he h1 k
    have h5 := h3 st x' h4
    obtain ⟨h6, h7, -⟩ := ready_next hv hexp ht hs h1 h4 (by linarith)
    refine ⟨(st, ⟨x', h6, h2.trans h7, fun st' x'' h8 => ?_⟩), h4⟩
    have h9 := C95_quadratic v hv hexp ht hs p duals x x' x'' h1 k st st' h4 h8 (by linarith)
    have h10 : 0 ≤ st.normsqrd := by
      obtain ⟨-, -, -, -, es', -, -, -, -, -, -, -, h10, -⟩ := Iteration.iterate_ok h4
      exact (program_direction hv hexp ht h1.good h10).1
    nlinarith
  choose f hf using next
  let start : Close := ⟨x₀, hr, Gap.SameProg.refl _, fun st x' h' => by
    rw [h, Outcome.ok.injEq, Option.some.injEq, Prod.mk.injEq] at h'
    exact h'.1 ▸ hn⟩
  let X : Nat → Close := fun l => Nat.rec start (fun _ x => (f x).2) l
  have hX : ∀ l, Iteration.iterate v p k (X l).1 = .ok (some ((f (X l)).1, (X (l + 1)).1)) := fun l => hf (X l)
  have hlast : ∀ l, ∃ es', Dual.prepareStep v (k * p.cs) p.N (f (X l)).1.y (X l).1.es =
      .ok (es', (f (X l)).1.norm, (f (X l)).1.normsqrd) := fun l => by
    obtain ⟨-, -, -, -, es', -, -, -, -, -, -, -, h10, -⟩ := Iteration.iterate_ok (hX l)
    exact ⟨es', h10⟩
  have hquarter : ∀ l, (f (X l)).1.normsqrd ≤ 1 / 4 := fun l => (X l).2.2.2 _ _ (hX l)
  have hpos : ∀ l, 0 ≤ (f (X l)).1.normsqrd := fun l => by
    obtain ⟨es', h1⟩ := hlast l
    exact (program_direction hv hexp ht (X l).2.1.good h1).1
  refine ⟨fun l => (X l).1, fun l => (f (X l)).1, rfl, ?_, fun l => ⟨hX l, ?_, hpos l, ?_, ?_⟩⟩
  · have := hX 0
    have e : (X 0).1 = x₀ := rfl
    rw [e, h, Outcome.ok.injEq, Option.some.injEq, Prod.mk.injEq] at this
    exact this.1.symm
  · obtain ⟨es', h1⟩ := hlast l
    exact step_one ((program_direction hv hexp ht (X l).2.1.good h1).2.1 (by linarith [hquarter l])).1
  · have := Centering.squared (q := fun l => (f (X l)).1.normsqrd) (l := 0) hpos (hquarter 0) (fun l hl =>
      C95_quadratic v hv hexp ht hs p duals _ _ _ (X l).2.1 k _ _ (hX l) (hX (l + 1)) hl) l
    rwa [Nat.zero_add] at this
  · obtain ⟨es', h1⟩ := hlast l
    have hsep : Separate (X l).1.es p.b := by
      intro i e o hi ho
      have := (X l).2.1.usable e (List.mem_of_getElem? hi)
      rw [ho] at this
      exact this.elim
    obtain ⟨h2, h3⟩ := C95_gap v hv hexp ht p.N _ p.b k p.bs p.cs hk hbs hcs (X l).1.es (X l).2.1.good hsep
      (system (X l).2.1 (hX l) (Centering.unregularized hv he (X l).2.1 (hX l))) es' _ _ h1 (by linarith [hquarter l])
    have hprog := (X l).2.2.1
    refine ⟨(hprog.feasible _).1 h2, fun z hz => ?_⟩
    have := h3 z ((hprog.feasible z).2 hz)
    rwa [hprog.objective, hprog.objective, hprog.rank] at this

/-! ### An example -/

/-- Minimise `-ty` such that `[1 y; y 1]` and `[1 iy; -iy 1]` are positive semidefinite, with arbitrary workspaces. -/
noncomputable def exMatrices (t : ℝ) (w : Lmi.Ws 2 ℝ) (w' : HermLmi.Ws 2 2 ℝ) : Whole.Program ℝ :=
  ⟨1, fun _ => -t,
   [⟨[0], .lmi 2 ⟨1, fun _ => !![0, -1; -1, 0], 1⟩ w⟩,
    ⟨[0], .hermitian 2 2 ⟨by decide⟩ ⟨[fun c => if c = 0 then 0 else !![0, -1; 1, 0]], some (Hyper.identity 2)⟩ w'⟩],
   [[], []], [⟨1, fun _ _ => 0, fun _ => 0, fun _ => 0, 0, 0⟩, ⟨1, fun _ _ => 0, fun _ => 0, fun _ => 0, 0, 0⟩], false⟩

theorem exMatrices_good (t : ℝ) (w : Lmi.Ws 2 ℝ) (w' : HermLmi.Ws 2 2 ℝ) : ConeProgram (exMatrices t w w') := by
  refine ⟨?_, ⟨_, rfl, by simp⟩, rfl, by simp [exMatrices], by simp [Sized, exMatrices], ?_, ?_, ?_⟩
  · intro e he
    simp only [exMatrices, List.mem_cons, List.not_mem_nil, or_false] at he
    rcases he with rfl | rfl
    · refine ⟨by simp, by simp [exMatrices], rfl, by norm_num, fun i _ => ?_, Matrix.transpose_one⟩
      ext i j
      fin_cases i <;> fin_cases j <;> rfl
    · refine ⟨by simp, by simp [exMatrices], rfl, Or.inr (Or.inl rfl), ⟨fun A hA => ?_, fun C hC => ?_⟩, _, rfl⟩
      · simp only [List.mem_cons, List.not_mem_nil, or_false] at hA
        subst hA
        intro i r c
        fin_cases i <;> fin_cases r <;> fin_cases c <;> simp
      · simp only [Option.mem_def, Option.some.injEq] at hC
        subst hC
        intro i r c
        fin_cases i <;> fin_cases r <;> fin_cases c <;> simp [Hyper.identity]
  · intro u hu
    refine ⟨_, List.mem_cons_self, ?_⟩
    have : u < 1 := hu
    simp
    omega
  · intro k hk
    obtain ⟨k', hk', hn⟩ : ∃ k, Sup.kktInit [[0], [0]] [[], []] = .ok k ∧ Sup.Spec.NoShift k :=
      ⟨_, rfl, Sup.noShift_of_bounded (n := 2) (by decide +kernel) (by decide +kernel)⟩
    have : Outcome.ok k = Outcome.ok k' := hk.symm.trans hk'
    rw [Outcome.ok.injEq] at this
    exact this ▸ hn
  · rintro z ⟨u, hu, hz⟩
    refine ⟨_, List.mem_cons_self, fun h => hz ?_⟩
    have hu0 : u = 0 := by
      have : u < 1 := hu
      omega
    subst hu0
    have := congrFun (congrFun h 0) 1
    simpa [Finset.sum_range_succ] using this

/-- The first direction: `y = t/4`. -/
theorem exMatrices_first (v : Env ℝ) (hv : ∀ x, 0 ≤ x → SolveLoop.Spec.SqrtAt v.sqrt x) (hexp : v.exp = Real.exp)
    (ht : Lmi.Spec.TriEigenvalues v.tri) (t : ℝ) (w : Lmi.Ws 2 ℝ) (w' : HermLmi.Ws 2 2 ℝ) (p : Iteration.Setup ℝ)
    (hN : p.N = 1) (hb : p.b 0 = t) (hbs : p.bs = 1)
    (hcs : p.cs = 1) (x x' : Iteration.State ℝ) (hx : x.es = Whole.startEs (exMatrices t w w')) (duals : List (List Nat))
    (hr : Ready p duals x) (st : Iteration.Step ℝ) (h : Iteration.iterate v p 1 x = .ok (some (st, x'))) :
    st.normsqrd = t ^ 2 / 4 := by
  have he : ∀ x, 0 < v.exp x := fun x => hexp ▸ Real.exp_pos x
  obtain ⟨s₀, s, h0, hs, hy⟩ := system hr h (Centering.unregularized hv he hr h)
  rw [hx] at h0 hs hy
  have d0 := (exMatrices_good t w w').data _ (List.mem_cons_self)
  have d1 := (exMatrices_good t w w').data _ (List.mem_cons_of_mem _ List.mem_cons_self)
  -- the linear system
  obtain ⟨⟨t0, a0, -, b0⟩, -⟩ := Lmi.C59_schur _ d0.2.2.2.2 1 Matrix.transpose_one (s₀ 0) (h0 0 _ rfl).ge
  have q0 : Lmi.schur _ 1 true (s₀ 0) = .ok (s 0) := hs 0 _ rfl
  rw [q0, Outcome.ok.injEq] at a0
  subst a0
  have hD := Hyper.dim_of_assoc (d := 2) (Or.inr (Or.inl rfl))
  have hid : HermLmi.Spec.PosDef (Hyper.identity 2 : Hyper.Hyp 2 (Fin 2) (Fin 2) ℝ) :=
    HermLmi.C60_identity hD w'
  obtain ⟨⟨t1, a1, -, b1⟩, -⟩ := HermLmi.C62_schur hD _ d1.2.2.2.2.1
    (Hyper.identity 2) hid.1 _ rfl (s₀ 1) (h0 1 _ rfl).ge
  have q1 : HermLmi.schur _ (Hyper.identity 2) true (s₀ 1) = .ok (s 1) := hs 1 _ rfl
  rw [q1, Outcome.ok.injEq] at a1
  subst a1
  have G0 := b0.G 0 (by norm_num) 0 le_rfl
  have W0 := b0.AW 0 (by norm_num)
  have C0 := b0.AQc 0 (by norm_num)
  have G1 := b1.G 0 (by norm_num) 0 le_rfl
  have W1 := b1.AW 0 (by norm_num)
  have C1 := b1.AQc 0 (by norm_num)
  simp [Matrix.trace, Fin.sum_univ_two] at G0 W0 C0
  have hq : ∀ A : Hyper.Hyp 2 (Fin 2) (Fin 2) ℝ, Hyper.quadRep (Hyper.identity 2) A = A := fun A => by
    rw [Hyper.quadRep_assoc (Or.inr (Or.inl rfl)), Hyper.one_multiply hD, Hyper.multiply_one hD]
  rw [hq] at G1 C1
  simp [HermLmi.Spec.inner, Fin.sum_univ_two, Hyper.identity] at G1 W1 C1
  have hy0 : st.y 0 = t / 4 := by
    have := hy 0 (by rw [hN]; norm_num)
    rw [hN] at this
    simp [Sup.Spec.total, Sup.Spec.entry, Sup.Spec.ventry, Whole.startEs, Whole.identity, exMatrices, List.range_succ, hb, hbs,
      hcs] at this
    rw [G0, W0, C0, G1, W1, C1] at this
    linarith
  -- the direction
  obtain ⟨-, -, -, -, es', -, -, -, -, -, -, -, h3, -⟩ := Iteration.iterate_ok h
  obtain ⟨-, -, β, -, hB, hβ⟩ := program_direction hv hexp ht hr.good h3
  rw [hx] at hβ hB
  obtain ⟨x₀, n₀, p0⟩ := hβ 0 _ rfl
  obtain ⟨x₁, n₁, p1⟩ := hβ 1 _ rfl
  obtain ⟨-, -, -, -, -, -, -, -, e0⟩ := lmi_direction hv ht d0.2.2.2.2 Matrix.PosDef.one p0
  have hk : (1 : ℝ) * p.cs = 1 := by rw [hcs, one_mul]
  rw [hk] at e0 p1
  simp [Lmi.Spec.slack, Matrix.trace, Matrix.mul_apply, Fin.sum_univ_two, hy0, Lmi.setIdentity] at e0
  obtain ⟨-, C, -, hC, -, -, -, -, -, -, -, -, -, -, e1⟩ := hermitian_direction hv ht (Or.inr (Or.inl rfl)) d1.2.2.2.2.1 hid p1
  have hC' : C = Hyper.identity 2 := by
    have : some (Hyper.identity 2 : Hyper.Hyp 2 (Fin 2) (Fin 2) ℝ) = some C := hC
    exact (Option.some.inj this).symm
  subst hC'
  have hWid : (HermLmi.setIdentity w').W = Hyper.identity 2 := rfl
  rw [hWid, Hyper.lmat_identity hD, one_mul, ← Hyper.lmat_multiply (Or.inr (Or.inl rfl)), Hyper.trace_lmat hD,
    Hyper.trace_lmat hD, Hyper.retr_multiply hD] at e1
  simp [HermLmi.Spec.slack, Matrix.trace, Matrix.mul_apply, Fin.sum_univ_two, hy0, Hyper.retr, Hyper.identity, Hyper.kap] at e1
  have hB' : st.normsqrd = β 0 + β 1 := by
    rw [hB]
    exact Finset.sum_range_succ _ 1 |>.trans (by rw [Finset.sum_range_one])
  rw [hB']
  linarith

/-- The hypotheses of `C95_local`, in an environment with exact eigenvalues. -/
example (w : Lmi.Ws 2 ℝ) (w' : HermLmi.Ws 2 2 ℝ) (mat : Sup.Store ℝ) : ∃ (tri : List ℝ → List ℝ → List ℝ) (p : Iteration.Setup ℝ)
    (x₀ x₁ : Iteration.State ℝ) (st₀ : Iteration.Step ℝ), Lmi.Spec.TriEigenvalues tri ∧ 0 < p.bs ∧ 0 < p.cs ∧
      Ready p [[], []] x₀ ∧ x₀.es.length = 2 ∧
      Iteration.iterate { Gap.exEnv with tri := tri } p 1 x₀ = .ok (some (st₀, x₁)) ∧ st₀.normsqrd = 1 / 4 := by
  obtain ⟨tri, ht⟩ := exists_tri
  obtain ⟨-, kkt, -, hr⟩ := start_ready (l := ⟨false, 1, Sup.realLlt, fun _ _ b => b, mat⟩) (exMatrices_good 1 w w')
    Sup.realLlt_contract Sup.realLlt_complete rfl
  obtain ⟨st, x', h, -⟩ := Iteration.iterate_total (v := { Gap.exEnv with tri := tri }) Gap.exEnv_sqrt Real.exp_pos hr 1
  exact ⟨tri, _, _, _, _, ht, one_pos, one_pos, hr, rfl, h, (exMatrices_first { Gap.exEnv with tri := tri } Gap.exEnv_sqrt rfl ht 1 w w' _ rfl (by
    norm_num [Whole.Program.b, exMatrices]) rfl rfl _ _ rfl _ hr _ h).trans (by norm_num)⟩

/-- The hypotheses of `C95_gap` and `C95_quadratic`, in the same run. -/
example (w : Lmi.Ws 2 ℝ) (w' : HermLmi.Ws 2 2 ℝ) (mat : Sup.Store ℝ) : ∃ (v : Env ℝ) (p : Iteration.Setup ℝ)
    (x x' x'' : Iteration.State ℝ) (st st' : Iteration.Step ℝ), Ready p [[], []] x ∧
      (∀ e ∈ x.es, Gap.Spec.Good e p.N) ∧ System v.sqrt p.N p.b 1 p.bs p.cs x.es st.y ∧
      (∃ es', Dual.prepareStep v (1 * p.cs) p.N st.y x.es = .ok (es', st.norm, st.normsqrd)) ∧
      Iteration.iterate v p 1 x = .ok (some (st, x')) ∧ Iteration.iterate v p 1 x' = .ok (some (st', x'')) ∧
      st.normsqrd = 1 / 4 := by
  obtain ⟨tri, ht⟩ := exists_tri
  obtain ⟨-, kkt, -, hr⟩ := start_ready (l := ⟨false, 1, Sup.realLlt, fun _ _ b => b, mat⟩) (exMatrices_good 1 w w')
    Sup.realLlt_contract Sup.realLlt_complete rfl
  obtain ⟨st, x', h, -⟩ := Iteration.iterate_total (v := { Gap.exEnv with tri := tri }) Gap.exEnv_sqrt Real.exp_pos hr 1
  have hq := (exMatrices_first { Gap.exEnv with tri := tri } Gap.exEnv_sqrt rfl ht 1 w w' _ rfl (by
    norm_num [Whole.Program.b, exMatrices]) rfl rfl _ _ rfl _ hr _ h).trans (show (1 : ℝ) ^ 2 / 4 = 1 / 4 by norm_num)
  obtain ⟨X, ST, h0, h1, h2⟩ := C95_local { Gap.exEnv with tri := tri } Gap.exEnv_sqrt rfl ht Iteration.ex_solves _ one_pos
    one_pos _ _ _ hr 1 one_pos _ h hq.le
  obtain ⟨-, -, -, -, es', -, -, -, -, -, -, -, h3, -⟩ := Iteration.iterate_ok h
  refine ⟨_, _, X 0, X 1, X 2, ST 0, ST 1, h0 ▸ hr, (h0 ▸ hr : Ready _ _ (X 0)).good, ?_, ⟨es', ?_⟩, (h2 0).1, (h2 1).1, h1 ▸ hq⟩
  · rw [h0, h1]
    exact system hr h (Centering.unregularized (v := { Gap.exEnv with tri := tri }) Gap.exEnv_sqrt Real.exp_pos hr h)
  · rw [h0, h1]
    exact h3

end Verif.MatrixCentering
