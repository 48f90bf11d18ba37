import Verif.Model.WholeSearch
import Verif.Lemmas.EquationsExample
import Verif.Props.MatrixPath

/-!
# C100: centering with equations

C92 and C97 exclude equations.  With equations the linear system is indefinite, and its factorization replaces pivots that
are small in absolute terms (F22).  As long as this does not happen, centering converges as without equations: the distance
of the scaling points from the central point decreases by the same amounts, and in the end the equations hold.
-/

namespace Verif.MatrixCentering

open Finset Verif.Dual Iteration.Spec
open Gap.Spec (Feasible objective System Separate)
open Spec (Short CommonUpdate CentralOn Equations ReadyOn distance unknowns)

/-- Iterations are defined if no supernode is empty, even if pivots are replaced. -/
theorem C100_defined (v : Env ℝ) (hv : ∀ x, 0 ≤ x → SolveLoop.Spec.SqrtAt v.sqrt x) (he : ∀ x, 0 < v.exp x)
    (p : Iteration.Setup ℝ) (duals : List (List Nat)) (x : Iteration.State ℝ) (hr : ReadyOn p duals x) (k : ℝ) :
    ∃ st x', Iteration.iterate v p k x = .ok (some (st, x')) :=
  iterate_on hv he hr k

/-- One iteration in which no pivot is replaced and no step is too long: the scaling points come closer to every central
point `z`, by at least a tenth of the sum of squares of the direction or by a fifth; they stay in their cones. -/
theorem C100_decrease_partial (v : Env ℝ) (hv : ∀ x, 0 ≤ x → SolveLoop.Spec.SqrtAt v.sqrt x) (hexp : v.exp = Real.exp)
    (ht : Lmi.Spec.TriEigenvalues v.tri) (hs : ∀ n, MatrixExp.Spec.Solves (v.solve n)) (p : Iteration.Setup ℝ)
    (duals : List (List Nat)) (x x' : Iteration.State ℝ) (hr : ReadyOn p duals x) (hcom : CommonUpdate x.es) (k : ℝ)
    (st : Iteration.Step ℝ) (h : Iteration.iterate v p k x = .ok (some (st, x'))) (hu : Unregularized st)
    (hb : 2 < st.normsqrd → ∀ e ∈ x.es, Short (k * p.cs) (SolveLoop.stepSize st.norm) (unknowns e st.y) e.item)
    (z : Nat → ℝ) (hz : CentralOn x.es p.N (fun u => k * p.bs * p.b u) (k * p.cs) z) :
    0 ≤ distance x'.es (k * p.cs) z ∧
      distance x'.es (k * p.cs) z ≤ distance x.es (k * p.cs) z - min 2 st.normsqrd / 10 ∧
      Equations x.es (k * p.cs) st.y ∧
      CentralOn x'.es p.N (fun u => k * p.bs * p.b u) (k * p.cs) z ∧ ReadyOn p duals x' ∧ CommonUpdate x'.es ∧
      Gap.SameProg x.es x'.es := by
  obtain ⟨-, -, -, -, es', -, -, -, -, -, -, -, h3, -⟩ := Iteration.iterate_ok h
  have hb' : ∀ e ∈ x.es, Short (k * p.cs) (SolveLoop.stepSize st.norm) (unknowns e st.y) e.item := by
    by_cases h2 : st.normsqrd ≤ 2
    · exact C97_short_sum v hv hexp ht p.N x.es es' hr.good _ _ _ _ h3 h2
    · exact hb (not_le.1 h2)
  obtain ⟨hr', hc⟩ := iterate_decrease_on hv hexp ht hs hr hcom h hu hb' hz
  obtain ⟨-, hmin⟩ := min_le_step hv hexp ht hr.good h3
  refine ⟨distance_nonneg_on hr'.good hr'.usable hc.central, ?_, equations_on hr h hu, hc.central, hr', hc.update, hc.same⟩
  have := hc.closer
  linarith

/-- Quadratic convergence: if no pivot is replaced and the sum of squares of a direction is at most one, that of the next one
is at most twice its square. -/
theorem C100_quadratic_partial (v : Env ℝ) (hv : ∀ x, 0 ≤ x → SolveLoop.Spec.SqrtAt v.sqrt x) (hexp : v.exp = Real.exp)
    (ht : Lmi.Spec.TriEigenvalues v.tri) (hs : ∀ n, MatrixExp.Spec.Solves (v.solve n)) (p : Iteration.Setup ℝ)
    (duals : List (List Nat)) (x x' x'' : Iteration.State ℝ) (hr : ReadyOn p duals x) (hr' : ReadyOn p duals x') (k : ℝ)
    (st st' : Iteration.Step ℝ) (h : Iteration.iterate v p k x = .ok (some (st, x'))) (hu : Unregularized st)
    (h' : Iteration.iterate v p k x' = .ok (some (st', x''))) (hu' : Unregularized st') (hn : st.normsqrd ≤ 1) :
    st'.normsqrd ≤ 2 * st.normsqrd ^ 2 := by
  obtain ⟨-, -, -, -, es', -, -, -, -, -, -, -, h3, h4, -⟩ := Iteration.iterate_ok h
  obtain ⟨-, -, -, -, es₁, -, -, -, -, -, -, -, h5, -, -⟩ := Iteration.iterate_ok h'
  exact program_quadratic_on hv hexp ht hs hr.good hr'.good hr.separate hr'.separate h3 hn h4 h5
    (system_on hr h hu) (system_on hr' h' hu')

/-- From any start, with a fixed barrier parameter: if no pivot is replaced, no step is too long, and there is a central point
`z`, then all iterations are defined; the sums of squares of the directions, cut off at two, add up to at most ten times the
distance of the start from `z`; and after one plus 40 times the distance iterations they decrease doubly exponentially, and
the points are feasible and optimal up to the gap of the barrier parameter.  In all iterations the equations hold. -/
theorem C100_centering_partial (v : Env ℝ) (hv : ∀ x, 0 ≤ x → SolveLoop.Spec.SqrtAt v.sqrt x) (hexp : v.exp = Real.exp)
    (ht : Lmi.Spec.TriEigenvalues v.tri) (hs : ∀ n, MatrixExp.Spec.Solves (v.solve n)) (p : Iteration.Setup ℝ)
    (hbs : 0 < p.bs) (hcs : 0 < p.cs) (duals : List (List Nat)) (x₀ : Iteration.State ℝ) (hr : ReadyOn p duals x₀)
    (hcom : CommonUpdate x₀.es) (k : ℝ) (hk : 0 < k)
    (hb : ∀ (X : Nat → Iteration.State ℝ) (ST : Nat → Iteration.Step ℝ) (n : Nat), X 0 = x₀ →
      (∀ l ≤ n, Iteration.iterate v p k (X l) = .ok (some (ST l, X (l + 1)))) → Unregularized (ST n) ∧
        (2 < (ST n).normsqrd →
          ∀ e ∈ (X n).es, Short (k * p.cs) (SolveLoop.stepSize (ST n).norm) (unknowns e (ST n).y) e.item))
    (z : Nat → ℝ) (hz : CentralOn x₀.es p.N (fun u => k * p.bs * p.b u) (k * p.cs) z) :
    ∃ (X : Nat → Iteration.State ℝ) (ST : Nat → Iteration.Step ℝ), X 0 = x₀ ∧
      (∀ l, Iteration.iterate v p k (X l) = .ok (some (ST l, X (l + 1)))) ∧
      (∀ l, Equations x₀.es (k * p.cs) (ST l).y) ∧
      (∀ n, ∑ l ∈ range n, min 2 (ST l).normsqrd ≤
        10 * (distance x₀.es (k * p.cs) z - distance (X n).es (k * p.cs) z)) ∧
      (∀ n, 0 ≤ distance (X n).es (k * p.cs) z) ∧
      ∀ m n : Nat, 40 * distance x₀.es (k * p.cs) z + 1 + m ≤ n →
        0 ≤ (ST n).normsqrd ∧ (ST n).normsqrd ≤ 1 / 2 * (1 / 2) ^ 2 ^ m ∧
        Feasible x₀.es (fun u => (ST n).y u / (k * p.cs)) ∧ ∀ z', Feasible x₀.es z' →
          objective p.N p.b (p.cs / p.bs) x₀.es z' ≤
            objective p.N p.b (p.cs / p.bs) x₀.es (fun u => (ST n).y u / (k * p.cs)) +
              (rank x₀.es - (ST n).normsqrd) / (k ^ 2 * p.bs * p.cs) := by
  classical
  have he : ∀ x, 0 < v.exp x := fun x => hexp ▸ Real.exp_pos x
  obtain ⟨st₀, -, -⟩ := C100_defined v hv he p duals x₀ hr k
  -- the run
  let f : Iteration.State ℝ → Iteration.Step ℝ × Iteration.State ℝ := fun x =>
    if h : ∃ q, Iteration.iterate v p k x = .ok (some q) then h.choose else (st₀, x)
  have hf : ∀ x q, Iteration.iterate v p k x = .ok (some q) → f x = q := fun x q hq => by
    have hex : ∃ q, Iteration.iterate v p k x = .ok (some q) := ⟨q, hq⟩
    have h1 := hex.choose_spec
    have h2 : f x = hex.choose := dif_pos hex
    have h3 := hq.symm.trans h1
    rw [Outcome.ok.injEq, Option.some.injEq] at h3
    rw [h2, ← h3]
  let X : Nat → Iteration.State ℝ := fun l => Nat.rec x₀ (fun _ x => (f x).2) l
  let ST : Nat → Iteration.Step ℝ := fun l => (f (X l)).1
  have hX : ∀ l, X (l + 1) = (f (X l)).2 := fun _ => rfl
  have hinv : ∀ n, (ReadyOn p duals (X n) ∧ CommonUpdate (X n).es ∧ Gap.SameProg x₀.es (X n).es ∧
      CentralOn (X n).es p.N (fun u => k * p.bs * p.b u) (k * p.cs) z ∧
      ∀ y, Equations (X n).es (k * p.cs) y → Equations x₀.es (k * p.cs) y) ∧
      ∀ l < n, Iteration.iterate v p k (X l) = .ok (some (ST l, X (l + 1))) := by
    intro n
    induction n with
    | zero => exact ⟨⟨hr, hcom, Gap.SameProg.refl _, hz, fun _ h => h⟩, fun l hl => absurd hl (Nat.not_lt_zero l)⟩
    | succ n ih =>
      obtain ⟨⟨h1, h2, h3, h4, heq⟩, h5⟩ := ih
      obtain ⟨st, x', h6⟩ := C100_defined v hv he p duals (X n) h1 k
      have h7 := hf _ _ h6
      have h8 : Iteration.iterate v p k (X n) = .ok (some (ST n, X (n + 1))) := by
        rw [h6, hX, h7]
        change _ = Outcome.ok (some ((f (X n)).1, x'))
        rw [h7]
      have h9 : ∀ l < n + 1, Iteration.iterate v p k (X l) = .ok (some (ST l, X (l + 1))) := fun l hl => by
        rcases Nat.lt_succ_iff_lt_or_eq.1 hl with hl | rfl
        · exact h5 l hl
        · exact h8
      obtain ⟨hu, hsh⟩ := hb X ST n rfl (fun l hl => h9 l (Nat.lt_succ_of_le hl))
      obtain ⟨-, -, -, h10, h11, h12, h13⟩ := C100_decrease_partial v hv hexp ht hs p duals _ _ h1 h2 k _ h8 hu hsh z h4
      exact ⟨⟨h11, h12, h3.trans h13, h10, fun y hy => heq y (equations_back h8 hy)⟩, h9⟩
  have hrun : ∀ l, Iteration.iterate v p k (X l) = .ok (some (ST l, X (l + 1))) := fun l =>
    (hinv (l + 1)).2 l (Nat.lt_succ_self l)
  have hun : ∀ l, Unregularized (ST l) := fun l => (hb X ST l rfl fun l _ => hrun l).1
  have hdec : ∀ l, _ := fun l => C100_decrease_partial v hv hexp ht hs p duals (X l) (X (l + 1)) (hinv l).1.1 (hinv l).1.2.1 k
    (ST l) (hrun l) (hun l) (hb X ST l rfl fun l _ => hrun l).2 z (hinv l).1.2.2.2.1
  have hlast : ∀ l, ∃ es', Dual.prepareStep v (k * p.cs) p.N (ST l).y (X l).es =
      .ok (es', (ST l).norm, (ST l).normsqrd) := fun l => by
    obtain ⟨-, -, -, -, es', -, -, -, -, -, -, -, h10, -⟩ := Iteration.iterate_ok (hrun l)
    exact ⟨es', h10⟩
  have hq0 : ∀ l, 0 ≤ (ST l).normsqrd := fun l => by
    obtain ⟨es', h1⟩ := hlast l
    exact (program_direction hv hexp ht (hinv l).1.1.good h1).1
  have hsum : ∀ n, ∑ l ∈ range n, min 2 (ST l).normsqrd ≤
      10 * (distance x₀.es (k * p.cs) z - distance (X n).es (k * p.cs) z) := by
    intro n
    induction n with
    | zero =>
      have e : X 0 = x₀ := rfl
      simp [e]
    | succ n ih =>
      rw [sum_range_succ]
      have := (hdec n).2.1
      linarith
  have hpos : ∀ n, 0 ≤ distance (X n).es (k * p.cs) z := fun n =>
    distance_nonneg_on (hinv n).1.1.good (hinv n).1.1.usable (hinv n).1.2.2.2.1
  refine ⟨X, ST, rfl, hrun, fun l => (hinv l).1.2.2.2.2 _ (hdec l).2.2.1, hsum, hpos, fun m n hn => ?_⟩
  have hmn : m + 1 ≤ n := by
    have : ((m + 1 : Nat) : ℝ) ≤ n := by
      push_cast
      have h0 := hpos 0
      have e : X 0 = x₀ := rfl
      rw [e] at h0
      linarith
    exact_mod_cast this
  obtain ⟨l, hl, hl'⟩ : ∃ l < n - m, (ST l).normsqrd ≤ 1 / 4 := by
    by_contra hcon
    push Not at hcon
    have h3 : ∑ l ∈ range (n - m), (1 / 4 : ℝ) < ∑ l ∈ range (n - m), min 2 (ST l).normsqrd :=
      sum_lt_sum_of_nonempty ⟨0, mem_range.2 (by omega)⟩ fun l hl =>
        lt_min (by norm_num) (hcon l (mem_range.1 hl))
    rw [sum_const, card_range, nsmul_eq_mul, Nat.cast_sub (by omega)] at h3
    have h4 := hsum (n - m)
    have h5 := hpos (n - m)
    linarith
  have hbound := Centering.squared hq0 hl' (fun l hl => C100_quadratic_partial v hv hexp ht hs p duals _ _ _ (hinv l).1.1
    (hinv (l + 1)).1.1 k _ _ (hrun l) (hun l) (hrun (l + 1)) (hun (l + 1)) hl) (n - l)
  rw [show l + (n - l) = n by omega] at hbound
  have h3 : (ST n).normsqrd ≤ 1 / 2 * (1 / 2) ^ 2 ^ m :=
    hbound.trans (mul_le_mul_of_nonneg_left (Centering.squared_le (by omega)) (by norm_num))
  have h4 : (1 / 2 : ℝ) ^ 2 ^ m ≤ 1 := pow_le_one₀ (by norm_num) (by norm_num)
  refine ⟨hq0 n, h3, ?_⟩
  obtain ⟨es', h1⟩ := hlast n
  obtain ⟨⟨hrn, -, hprog, -⟩, -⟩ := hinv n
  obtain ⟨h5, h6⟩ := C95_gap v hv hexp ht p.N _ p.b k p.bs p.cs hk hbs hcs (X n).es hrn.good hrn.separate
    (system_on hrn (hrun n) (hun n)) es' _ _ h1 (by linarith)
  refine ⟨(hprog.feasible _).1 h5, fun z' hz' => ?_⟩
  have := h6 z' ((hprog.feasible z').2 hz')
  rwa [hprog.objective, hprog.objective, hprog.rank] at this

/-- Without the assumption on the pivots the equations need not hold: for the equation `y₀ = 1/2` multiplied by `1/100000`, a
pivot is replaced, and the iterations have a fixed point (the direction is zero, and the scaling points are not changed by the
step) at `y₀ = 1`. -/
theorem C100_equations_violated : ∃ st x', Iteration.iterate exSmallEnv exSmallSetup 1
      ⟨exSmall, [⟨2, 0, 0, 0, 0, 0⟩, ⟨2, 0, 0, 0, 0, 0⟩], fun _ => 0⟩ = .ok (some (st, x')) ∧ st.norm = 0 ∧ st.normsqrd = 0 ∧
    (x'.es.map fun e => match e.item with | .linear _ w => [w.W 0, w.W 1] | _ => []) = [[1, 2], []] ∧
    st.y 0 = 1 ∧ (1 / 100000 : ℚ) * st.y 0 ≠ 1 / 200000 := by
  refine ⟨_, _, rfl, ?_, ?_, ?_, ?_, ?_⟩ <;> decide +kernel

/-! ### A success that does not satisfy the equations -/

/-- Maximise `(1/18 + 1/1000) y₀ + y₁ / 1000` subject to `y₀ ≤ 1001/1000`, `y₁ ≤ 1/1000` and `y₀ = 1/2`, the equation
multiplied by `1/100000`. -/
def smallProgram : Whole.Program ℚ :=
  ⟨2, fun u => if u = 0 then -(1 / 18 + 1 / 1000) else -1 / 1000,
    [⟨[0, 1], .linear ⟨2, 2, fun i j => if i = j then 1 else 0, fun i => if i = 0 then 1001 / 1000 else 1 / 1000⟩
      ⟨fun _ => 0, fun _ => 0, fun _ => 0⟩⟩,
     ⟨[0, 2], .equality ⟨1, 1, 1, fun _ _ => 1 / 100000, fun _ => 1 / 200000, fun _ => 0⟩⟩],
    [[], [2]], [⟨2, 0, 0, 0, 0, 0⟩, ⟨2, 0, 0, 0, 0, 0⟩], false⟩

/-- The square root is exact where it matters; the exponential is only taken of zero. -/
def smallEnv : Env ℚ :=
  ⟨fun x => if x = 1 / 10000 then 1 / 100 else x, fun x => x + 1, fun _ _ => [], fun _ _ b => b, fun _ _ _ _ _ => 0⟩

/-- The default options, with the line search and without rescaling (`maximum_mu` differs by 10⁻¹⁵, for the square root). -/
def smallConfig : SolveLoop.Config ℚ :=
  ⟨false, 0, 1000, 10 ^ 4 - 1 / 10 ^ 15, true, 5, 1 / 100, 0, 0, 2, 25, 10 ^ 5, 10 ^ 10, false⟩

/-- What the caller sees: whether the program is reported as solved, the last and the largest barrier parameter, and the
point. -/
def smallSeen : Outcome (Whole.Result ℚ) → Option Bool × Option (ℚ × ℚ) × List ℚ
  | .ok r => (some r.res.prog.status.solved, r.res.final, match r.array with
    | some z => [z 0, z 1]
    | none => [])
  | _ => (none, none, [])

/-- `Solve` reports success for the largest barrier parameter with the point `(1, 0)`, which violates the equation by as much
as the point `(0, 0)` does, though `(1/2, 0)` is strictly feasible. -/
theorem C100_solve_violated :
    smallSeen (Whole.solveSearch smallEnv ⟨false, 0, fun _ _ => none, fun _ _ b => b, fun _ => 0⟩ ⟨1, 10 ^ 9, 1⟩ smallProgram
      smallConfig ⟨false, none, false, false⟩) = (some true, some (1000, 1000), [1, 0]) ∧
    (1 / 100000 : ℚ) * 1 - 1 / 200000 = -((1 / 100000) * 0 - 1 / 200000) ∧
    (1 / 2 < (1001 / 1000 : ℚ) ∧ 0 < (1 / 1000 : ℚ) ∧ (1 / 100000 : ℚ) * (1 / 2) = 1 / 200000) := by
  decide +kernel

/-! ### An example -/

/-- The states of the program whose scaling points are at most that far away. -/
def ExOnNear (x : Iteration.State ℝ) : Prop :=
  x.sys.map Schur.Sys.rows = [2, 2] ∧ ∃ W t l, x.es = exOn W t l ∧ (∀ i < 2, 0 < W i) ∧
    distance x.es (1 * 1) exOnY ≤ 11 / 4

theorem exOnNear_ready {x : Iteration.State ℝ} (hx : ExOnNear x) :
    ReadyOn exOnSetup [[], [1]] x ∧ CommonUpdate x.es ∧
      CentralOn x.es exOnSetup.N (fun u => 1 * exOnSetup.bs * exOnSetup.b u) (1 * exOnSetup.cs) exOnY := by
  obtain ⟨es, sys, m⟩ := x
  obtain ⟨h1, W, t, l, h2, h3, h4⟩ := hx
  simp only at h2
  subst h2
  refine ⟨exOn_ready W t l (exOn_bounds h3 h4) _ h1 _, Or.inl ?_, exOn_central W t l⟩
  intro e he d m hd o w ho
  simp only [exOn, List.mem_cons, List.not_mem_nil, or_false] at he
  rcases he with rfl | rfl <;> cases ho

/-- They are not left. -/
theorem exOnNear_next {tri : List ℝ → List ℝ → List ℝ} (ht : Lmi.Spec.TriEigenvalues tri) {x x' : Iteration.State ℝ}
    (hx : ExOnNear x) {st : Iteration.Step ℝ}
    (h : Iteration.iterate { Gap.exEnv with tri := tri } exOnSetup 1 x = .ok (some (st, x'))) :
    Unregularized st ∧
      (∀ e ∈ x.es, Short (1 * exOnSetup.cs) (SolveLoop.stepSize st.norm) (unknowns e st.y) e.item) ∧ ExOnNear x' := by
  obtain ⟨hr, hc, hz⟩ := exOnNear_ready hx
  obtain ⟨h1, W, t, l, h2, h3, h4⟩ := hx
  obtain ⟨hu, hrows, W', t', l', h5⟩ := exOn_next tri W t l
    (exOn_bounds h3 (h2 ▸ h4)) x x' h2 h1 st h
  have hsh : ∀ e ∈ x.es, Short (1 * exOnSetup.cs) (SolveLoop.stepSize st.norm) (unknowns e st.y) e.item := by
    intro e he
    rw [h2] at he
    simp only [exOn, List.mem_cons, List.not_mem_nil, or_false] at he
    rcases he with rfl | rfl <;> trivial
  obtain ⟨-, hd, -, -, hr', -, -⟩ := C100_decrease_partial { Gap.exEnv with tri := tri } Gap.exEnv_sqrt rfl ht Iteration.ex_solves _ _ _ _ hr hc 1 st h hu
    (fun _ => hsh) exOnY hz
  refine ⟨hu, hsh, hrows, W', t', l', h5, fun i hi => ?_, ?_⟩
  · have := hr'.good ⟨[2, 0], .linear ⟨2, 2, fun i j => if i = j then 1 else 0, fun i => if i = 0 then 1 else 3 / 2⟩
     ⟨W', fun _ => 0, t'⟩⟩ (by rw [h5]; simp [exOn])
    exact this.2.2.2 i hi
  · have h6 : 0 ≤ st.normsqrd := by
      obtain ⟨-, -, -, -, es', -, -, -, -, -, -, -, h7, -⟩ := Iteration.iterate_ok h
      exact (program_direction (v := { Gap.exEnv with tri := tri }) Gap.exEnv_sqrt rfl ht hr.good h7).1
    have h7 : 0 ≤ min 2 st.normsqrd := le_min (by norm_num) h6
    have h8 : distance x'.es (1 * exOnSetup.cs) exOnY ≤ distance x.es (1 * 1) exOnY := hd.trans (by
      have : (1 : ℝ) * exOnSetup.cs = 1 * 1 := rfl
      rw [this]
      linarith)
    exact h8.trans h4

/-- A start that is not central. -/
noncomputable def exOnStart : Iteration.State ℝ :=
  ⟨exOn (fun i => if i = 0 then 4 else 1 / 2) (fun _ => 0) (fun _ => 0),
    [⟨2, 0, 0, 0, 0, 0⟩, ⟨2, 0, 0, 0, 0, 0⟩], fun _ => 0⟩

theorem exOnStart_distance : distance exOnStart.es (1 * 1) exOnY = 11 / 4 := by
  rw [exOnStart, exOn_distance]
  · norm_num
  · intro i _
    split <;> norm_num

theorem exOnStart_near : ExOnNear exOnStart :=
  ⟨rfl, _, _, _, rfl, fun i _ => by split <;> norm_num, exOnStart_distance.le⟩

/-- The hypotheses of `C100_defined` and `C100_decrease_partial` hold for the first iteration from that start. -/
example : ∃ (v : Env ℝ) (st : Iteration.Step ℝ) (x' : Iteration.State ℝ),
    Iteration.iterate v exOnSetup 1 exOnStart = .ok (some (st, x')) ∧ Unregularized st ∧
      distance x'.es (1 * 1) exOnY ≤ 11 / 4 - min 2 st.normsqrd / 10 ∧ st.y 0 = 1 / 2 := by
  obtain ⟨tri, ht⟩ := exists_tri
  obtain ⟨hr, hc, hz⟩ := exOnNear_ready exOnStart_near
  obtain ⟨st, x', h⟩ := C100_defined { Gap.exEnv with tri := tri } Gap.exEnv_sqrt Real.exp_pos exOnSetup _ exOnStart hr 1
  obtain ⟨hu, hsh, -⟩ := exOnNear_next ht exOnStart_near h
  obtain ⟨-, hd, he, -⟩ := C100_decrease_partial { Gap.exEnv with tri := tri } Gap.exEnv_sqrt rfl ht Iteration.ex_solves _ _ _ _ hr hc 1 st h hu
    (fun _ => hsh) exOnY hz
  refine ⟨_, st, x', h, hu, exOnStart_distance ▸ hd, ?_⟩
  have := he ⟨[0, 1], .equality ⟨1, 1, 1, fun _ _ => 1, fun _ => 1 / 2, fun _ => 0⟩⟩ (by simp [exOnStart, exOn]) _ rfl 0 one_pos
  simpa [unknowns, exOnSetup] using this

/-- The hypotheses of `C100_centering_partial` and, for later iterations, those of `C100_quadratic_partial` hold for this
start: after 111 iterations the sum of squares is at most a quarter, and from then on it decreases doubly exponentially. -/
example : ∃ (v : Env ℝ) (X : Nat → Iteration.State ℝ) (ST : Nat → Iteration.Step ℝ), X 0 = exOnStart ∧
    (∀ l, Iteration.iterate v exOnSetup 1 (X l) = .ok (some (ST l, X (l + 1)))) ∧ (∀ l, (ST l).y 0 = 1 / 2) ∧
    (∀ m n : Nat, 111 + m ≤ n → (ST n).normsqrd ≤ 1 / 2 * (1 / 2) ^ 2 ^ m) ∧
    ∀ n, 111 ≤ n → (ST (n + 1)).normsqrd ≤ 2 * (ST n).normsqrd ^ 2 := by
  obtain ⟨tri, ht⟩ := exists_tri
  obtain ⟨hr, hc, hz⟩ := exOnNear_ready exOnStart_near
  have hnear : ∀ (X : Nat → Iteration.State ℝ) (ST : Nat → Iteration.Step ℝ) (n : Nat), X 0 = exOnStart →
      (∀ l ≤ n, Iteration.iterate { Gap.exEnv with tri := tri } exOnSetup 1 (X l) = .ok (some (ST l, X (l + 1)))) →
      ∀ l ≤ n, ExOnNear (X l) := fun X ST n h0 h l hl => by
    induction l with
    | zero => exact h0 ▸ exOnStart_near
    | succ l ih => exact (exOnNear_next ht (ih (by omega)) (h l (by omega))).2.2
  obtain ⟨X, ST, h0, hrun, heq, -, -, hfin⟩ := C100_centering_partial { Gap.exEnv with tri := tri } Gap.exEnv_sqrt rfl ht
    Iteration.ex_solves exOnSetup one_pos one_pos _ exOnStart hr hc 1 one_pos (fun X ST n h0 h => by
      obtain ⟨h1, h2, -⟩ := exOnNear_next ht (hnear X ST n h0 h n le_rfl) (h n le_rfl)
      exact ⟨h1, fun _ => h2⟩) exOnY hz
  have hd : distance exOnStart.es (1 * exOnSetup.cs) exOnY = 11 / 4 := exOnStart_distance
  have hsq : ∀ m n : Nat, 111 + m ≤ n → (ST n).normsqrd ≤ 1 / 2 * (1 / 2) ^ 2 ^ m := fun m n hn => by
    refine (hfin m n ?_).2.1
    rw [hd]
    have : ((111 + m : Nat) : ℝ) ≤ n := by exact_mod_cast hn
    push_cast at this
    linarith
  have hall : ∀ l, ExOnNear (X l) := fun l => hnear X ST l h0 (fun l _ => hrun l) l le_rfl
  refine ⟨_, X, ST, h0, hrun, fun l => ?_, hsq, fun n hn => ?_⟩
  · have := heq l ⟨[0, 1], .equality ⟨1, 1, 1, fun _ _ => 1, fun _ => 1 / 2, fun _ => 0⟩⟩ (by simp [exOnStart, exOn]) _ rfl 0 one_pos
    simpa [unknowns, exOnSetup] using this
  · refine C100_quadratic_partial { Gap.exEnv with tri := tri } Gap.exEnv_sqrt rfl ht Iteration.ex_solves _ _ _ _ _ (exOnNear_ready (hall n)).1
      (exOnNear_ready (hall (n + 1))).1 1 _ _ (hrun n) (exOnNear_next ht (hall n) (hrun n)).1 (hrun (n + 1))
      (exOnNear_next ht (hall (n + 1)) (hrun (n + 1))).1 ?_
    have := hsq 0 n hn
    norm_num at this
    linarith

end Verif.MatrixCentering
