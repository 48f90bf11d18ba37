import Verif.Lemmas.ConeCentering
import Verif.Props.Centering

/-!
# C92: centering converges for second-order and quadratic cones

Iterations with a fixed barrier parameter, for any mixture of linear inequalities, second-order cones, quadratic cones
and convex quadratic costs: what C88 says of linear inequalities and costs.
-/

namespace Verif.ConeCentering

open Finset Iteration.Spec Whole.Spec Spec
open Verif.Dual

/-- Near the central point: after a direction whose largest eigenvalue is at most one, the sum of squares of the
eigenvalues of the next one is at most twice the square of the largest one times that of the present one. -/
theorem C92_quadratic (v : Env ℝ) (hv : ∀ x, 0 ≤ x → SolveLoop.Spec.SqrtAt v.sqrt x) (hexp : v.exp = Real.exp)
    (hs : ∀ n, MatrixExp.Spec.Solves (v.solve n)) (p : Iteration.Setup ℝ) (duals : List (List Nat))
    (x x' x'' : Iteration.State ℝ) (hr : Ready p duals x) (hp : VectorCones x.es) (k : ℝ)
    (st st' : Iteration.Step ℝ) (h : Iteration.iterate v p k x = .ok (some (st, x')))
    (h' : Iteration.iterate v p k x' = .ok (some (st', x''))) (hn : st.norm ≤ 1) :
    st'.normsqrd ≤ 2 * st.norm ^ 2 * st.normsqrd := by
  have he : ∀ x, 0 < v.exp x := fun x => hexp ▸ Real.exp_pos x
  obtain ⟨⟨q, h1⟩, h2⟩ := iterated hv hexp hr hp h (Centering.unregularized hv he hr h)
  obtain ⟨h3, -⟩ := Iteration.ready_next hv he hs hr h (Centering.unregularized hv he hr h) fun e he' hd' =>
    absurd hd' (not_dense hp e he')
  obtain ⟨⟨q', h4⟩, -⟩ := iterated hv hexp h3 h2 h' (Centering.unregularized hv he h3 h')
  exact iterated_quadratic h1 h4 hn

/-- From any start: all iterations are defined.  If there is a central point `z` for the barrier parameter, then the
sums of squares of the directions, cut off at two, add up to at most ten times the distance of the start from it; and
after one plus 40 times the distance iterations they decrease doubly exponentially. -/
theorem C92_centering (v : Env ℝ) (hv : ∀ x, 0 ≤ x → SolveLoop.Spec.SqrtAt v.sqrt x) (hexp : v.exp = Real.exp)
    (hs : ∀ n, MatrixExp.Spec.Solves (v.solve n)) (p : Iteration.Setup ℝ) (duals : List (List Nat))
    (x₀ : Iteration.State ℝ) (hr : Ready p duals x₀) (hp : VectorCones x₀.es) (k : ℝ) (z : Nat → ℝ)
    (hz : Central x₀.es p.N (fun u => k * p.bs * p.b u) (k * p.cs) z) :
    ∃ (X : Nat → Iteration.State ℝ) (ST : Nat → Iteration.Step ℝ), X 0 = x₀ ∧
      (∀ l, Iteration.iterate v p k (X l) = .ok (some (ST l, X (l + 1)))) ∧
      (∀ n, ∑ l ∈ range n, min 2 (ST l).normsqrd ≤
        10 * (distance x₀.es (k * p.cs) z - distance (X n).es (k * p.cs) z)) ∧
      (∀ n, 0 ≤ distance (X n).es (k * p.cs) z) ∧
      ∀ m n : Nat, 40 * distance x₀.es (k * p.cs) z + 1 + m ≤ n →
        (ST n).norm ≤ 1 ∧ (ST n).normsqrd ≤ 1 / 2 * (1 / 2) ^ 2 ^ m := by
  have he : ∀ x, 0 < v.exp x := fun x => hexp ▸ Real.exp_pos x
  obtain ⟨X, ST, rfl, h2⟩ := Iteration.run_exists hv he hs hr (not_dense hp) fun _ => k
  have hrun := run hv hexp hs hr hp fun l => (h2 l).1
  choose q hq using fun l => (hrun l).2.2.2
  have hsum : ∀ n, ∑ l ∈ range n, min 2 (ST l).normsqrd ≤
      10 * (distance (X 0).es (k * p.cs) z - distance (X n).es (k * p.cs) z) := by
    intro n
    induction n with
    | zero => simp
    | succ n ih =>
      rw [sum_range_succ]
      have := iterated_min (hq n) ((hrun n).1.central hz)
      linarith
  have hpos : ∀ n, 0 ≤ distance (X n).es (k * p.cs) z := fun n =>
    distance_nonneg (hq n).shape (hq n).pos ((hrun n).1.central hz).interior
  refine ⟨X, ST, rfl, fun l => (h2 l).1, hsum, hpos, fun m n hn => ?_⟩
  have hq0 : ∀ l, 0 ≤ (ST l).normsqrd := fun l => iterated_nonneg (hq l)
  have hsq : ∀ l, (ST l).normsqrd ≤ 1 → (ST (l + 1)).normsqrd ≤ 2 * (ST l).normsqrd ^ 2 := by
    intro l hl
    have h3 := iterated_quadratic (hq l) (hq (l + 1)) (iterated_le_one (hq l) hl)
    have h4 := iterated_norm (hq l)
    linarith
  -- one of the first directions is short
  have hmn : m + 1 ≤ n := by
    have : ((m + 1 : Nat) : ℝ) ≤ n := by
      push_cast
      linarith [hpos 0]
    exact_mod_cast this
  obtain ⟨l, hl, hl'⟩ : ∃ l < n - m, (ST l).normsqrd ≤ 1 / 4 := by
    by_contra hcon
    push Not at hcon
    have h3 : ∑ l ∈ range (n - m), (1 / 4 : ℝ) < ∑ l ∈ range (n - m), min 2 (ST l).normsqrd :=
      sum_lt_sum_of_nonempty ⟨0, mem_range.2 (by omega)⟩ fun l hl =>
        lt_min (by norm_num) (hcon l (mem_range.1 hl))
    rw [sum_const, card_range, nsmul_eq_mul, Nat.cast_sub (by omega)] at h3
    have h4 := hsum (n - m)
    have h5 := hpos (n - m)
    linarith
  have hbound := Centering.squared hq0 hl' hsq (n - l)
  rw [show l + (n - l) = n by omega] at hbound
  have h3 : (ST n).normsqrd ≤ 1 / 2 * (1 / 2) ^ 2 ^ m :=
    hbound.trans (mul_le_mul_of_nonneg_left (Centering.squared_le (by omega)) (by norm_num))
  have h4 : (1 / 2 : ℝ) ^ 2 ^ m ≤ 1 := pow_le_one₀ (by norm_num) (by norm_num)
  exact ⟨iterated_le_one (hq n) (by linarith), h3⟩

/-- With C74: after that many iterations the points are feasible and optimal up to the gap of the barrier parameter. -/
theorem C92_optimal (v : Env ℝ) (hv : ∀ x, 0 ≤ x → SolveLoop.Spec.SqrtAt v.sqrt x) (hexp : v.exp = Real.exp)
    (hs : ∀ n, MatrixExp.Spec.Solves (v.solve n)) (p : Iteration.Setup ℝ) (hbs : 0 < p.bs) (hcs : 0 < p.cs)
    (duals : List (List Nat)) (x₀ : Iteration.State ℝ) (hr : Ready p duals x₀) (hp : VectorCones x₀.es) (k : ℝ)
    (hk : 0 < k) (z : Nat → ℝ) (hz : Central x₀.es p.N (fun u => k * p.bs * p.b u) (k * p.cs) z) :
    ∃ (X : Nat → Iteration.State ℝ) (ST : Nat → Iteration.Step ℝ), X 0 = x₀ ∧
      (∀ l, Iteration.iterate v p k (X l) = .ok (some (ST l, X (l + 1)))) ∧
      ∀ n : Nat, 40 * distance x₀.es (k * p.cs) z + 1 ≤ n →
        Gap.Spec.Feasible x₀.es (fun u => (ST n).y u / (k * p.cs)) ∧ ∀ z', Gap.Spec.Feasible x₀.es z' →
          Gap.Spec.objective p.N p.b (p.cs / p.bs) x₀.es z' ≤
            Gap.Spec.objective p.N p.b (p.cs / p.bs) x₀.es (fun u => (ST n).y u / (k * p.cs)) +
              (rank x₀.es - (ST n).normsqrd) / (k ^ 2 * p.bs * p.cs) := by
  have he : ∀ x, 0 < v.exp x := fun x => hexp ▸ Real.exp_pos x
  have hm : ∀ e ∈ x₀.es, ¬ MatrixCone e.item := fun e he' hd' => by
    rcases hp e he' with ⟨o, w, ho⟩ | ⟨o, w, ho⟩ | ⟨o, w, ho⟩ | ⟨n, Q, ho⟩ <;> rw [ho] at hd' <;> exact hd'
  obtain ⟨X, ST, rfl, h2, -, -, h3⟩ := C92_centering v hv hexp hs p duals x₀ hr hp k z hz
  obtain ⟨X', ST', h4, h5⟩ := Iteration.C74_vector v hv he hs p hbs hcs duals _ hr hm (fun _ => k) fun _ => hk
  have hX : ∀ l, X' l = X l := by
    intro l
    induction l with
    | zero => exact h4
    | succ l ih =>
      have := (h5 l).1
      rw [ih, h2 l, Outcome.ok.injEq, Option.some.injEq, Prod.mk.injEq] at this
      exact this.2.symm
  refine ⟨X, ST, rfl, h2, fun n hn => ?_⟩
  have hst : ST' n = ST n := by
    have := (h5 n).1
    rw [hX n, h2 n, Outcome.ok.injEq, Option.some.injEq, Prod.mk.injEq] at this
    exact this.1.symm
  have := (h5 n).2
  rw [hst] at this
  exact this ((h3 0 n (by push_cast; linarith)).1)

/-! ### An example -/

/-- Minimise `-4/3 y₀` subject to `‖y‖ ≤ 1`, with arbitrary workspace. -/
noncomputable def exBall (w : Soc.Ws ℝ) : Whole.Program ℝ :=
  ⟨2, fun u => if u = 0 then -4 / 3 else 0,
   [⟨[0, 1], .soc (Soc.ofMatrices 2 2 (fun i j => if i = j + 1 then 1 else 0) fun i => if i = 0 then 1 else 0) w⟩],
   [[]], [⟨2, fun _ _ => 0, fun _ => 0, fun _ => 0, 0, 0⟩], false⟩

theorem exBall_good (w : Soc.Ws ℝ) : VectorProgram (exBall w) := by
  refine ⟨?_, ⟨_, rfl, by simp⟩, rfl, by simp [exBall], by simp [Sized, exBall], ?_, ?_, ?_, ?_⟩
  · intro e he
    simp only [exBall, List.mem_cons, List.not_mem_nil, or_false] at he
    subst he
    exact ⟨by simp, by simp [exBall], rfl, rfl, rfl⟩
  · intro u hu
    refine ⟨_, List.mem_cons_self, ?_⟩
    have : u < 2 := hu
    simp
    omega
  · intro k hk
    obtain ⟨k', hk', hn⟩ : ∃ k, Sup.kktInit [[0, 1]] [[]] = .ok k ∧ Sup.Spec.NoShift k :=
      ⟨_, rfl, Sup.noShift_of_bounded (n := 1) (by decide +kernel) (by decide +kernel)⟩
    have : Outcome.ok k = Outcome.ok k' := hk.symm.trans hk'
    rw [Outcome.ok.injEq] at this
    exact this ▸ hn
  · rintro z ⟨u, hu, hz⟩
    refine ⟨_, List.mem_cons_self, fun h => hz ?_⟩
    have : u = 0 ∨ u = 1 := by
      have : u < 2 := hu
      omega
    rcases this with rfl | rfl
    · have := h 1 (by show 1 ≤ 2; norm_num)
      simpa [Finset.sum_range_succ, Soc.ofMatrices] using this
    · have := h 2 (by show 2 ≤ 2; norm_num)
      simpa [Finset.sum_range_succ, Soc.ofMatrices] using this
  · intro e he n Q h
    simp only [exBall, List.mem_cons, List.not_mem_nil, or_false] at he
    subst he
    cases h

theorem exBall_cones (w : Soc.Ws ℝ) : VectorCones (Whole.startEs (exBall w)) := fun e he => Or.inr (Or.inl (by
  simp only [Whole.startEs, Whole.identity, exBall, List.map_cons, List.map_nil, List.mem_cons, List.not_mem_nil,
    or_false] at he
  subst he
  exact ⟨_, _, rfl⟩))

/-- The central point for the barrier parameter one is `(1/2, 0)`. -/
theorem exBall_central (w : Soc.Ws ℝ) : Central (Whole.startEs (exBall w)) 2
    (fun u => 1 * 1 * (exBall w).b u) (1 * 1) (fun u => if u = 0 then 1 / 2 else 0) := by
  refine ⟨fun i hi r hr => ?_, fun u hu => ?_⟩
  · have hi' : i = 0 := by
      have : i < 1 := hi
      omega
    subst hi'
    constructor
    · norm_num [slack, Whole.startEs, Whole.identity, exBall, nth, Whole.setIdentity, affine, column, Soc.ofMatrices,
        sum_range_succ]
    · norm_num [slack, Whole.startEs, Whole.identity, exBall, nth, Whole.setIdentity, affine, column, form,
        Soc.ofMatrices, Soc.dot, sum_range_succ]
  · have : u = 0 ∨ u = 1 := by omega
    rcases this with rfl | rfl
    · norm_num [slack, Whole.startEs, Whole.identity, exBall, nth, Whole.setIdentity, affine, column, form, pair, cells,
        inverse, det, Spec.image, Centering.Spec.gradients, Centering.Spec.gradient, Soc.ofMatrices, Soc.dot,
        Sup.Spec.ventry, sum_range_succ, Whole.Program.b]
    · norm_num [slack, Whole.startEs, Whole.identity, exBall, nth, Whole.setIdentity, affine, column, form, pair, cells,
        inverse, det, Spec.image, Centering.Spec.gradients, Centering.Spec.gradient, Soc.ofMatrices, Soc.dot,
        Sup.Spec.ventry, sum_range_succ, Whole.Program.b]

/-- The hypotheses of `C92_centering` and `C92_optimal`, from scaling points at one.  The distance is `2/3`. -/
example (w : Soc.Ws ℝ) (mat : Sup.Store ℝ) : ∃ (kkt : Sup.Kkt) (X : Nat → Iteration.State ℝ)
    (ST : Nat → Iteration.Step ℝ),
    (∀ l, Iteration.iterate Gap.exEnv ⟨2, (exBall w).b, 1, 1, kkt, false, 1, Sup.realLlt,
      fun _ _ b => b⟩ 1 (X l) = .ok (some (ST l, X (l + 1)))) ∧
    ∀ n, 29 ≤ n → (ST n).normsqrd ≤ 1 / 8 := by
  obtain ⟨-, kkt, -, hr, -⟩ := Whole.start_ready (l := ⟨false, 1, Sup.realLlt, fun _ _ b => b, mat⟩)
    (exBall_good w) Sup.realLlt_contract Sup.realLlt_complete rfl
  obtain ⟨X, ST, -, h1, -, -, h2⟩ := C92_centering Gap.exEnv Gap.exEnv_sqrt rfl Iteration.ex_solves _ _ _ hr
    (exBall_cones w) 1 (fun u => if u = 0 then 1 / 2 else 0) (exBall_central w)
  refine ⟨kkt, X, ST, h1, fun n hn => ?_⟩
  have hd : distance (Whole.startEs (exBall w)) (1 * 1) (fun u => if u = 0 then 1 / 2 else 0) = 2 / 3 := by
    norm_num [distance, separation, slack, point, order, Whole.startEs, Whole.identity, exBall, nth, Whole.setIdentity,
      Soc.setIdentity, affine, column, form, pair, cells, inverse, det, Soc.ofMatrices, Soc.dot, sum_range_succ]
  have := (h2 1 n (by
    show 40 * distance (Whole.startEs (exBall w)) (1 * 1) (fun u => if u = 0 then 1 / 2 else 0) + 1 + ((1 : Nat) : ℝ) ≤ n
    rw [hd]
    have : (29 : ℝ) ≤ n := by exact_mod_cast hn
    push_cast
    linarith)).2
  norm_num at this
  linarith

/-- The hypotheses of `C92_quadratic`, late enough in the same run. -/
example (w : Soc.Ws ℝ) (mat : Sup.Store ℝ) : ∃ (p : Iteration.Setup ℝ) (x x' x'' : Iteration.State ℝ)
    (st st' : Iteration.Step ℝ), Ready p [[]] x ∧ VectorCones x.es ∧
      Iteration.iterate Gap.exEnv p 1 x = .ok (some (st, x')) ∧
      Iteration.iterate Gap.exEnv p 1 x' = .ok (some (st', x'')) ∧ st.norm ≤ 1 := by
  obtain ⟨-, kkt, -, hr, -⟩ := Whole.start_ready (l := ⟨false, 1, Sup.realLlt, fun _ _ b => b, mat⟩)
    (exBall_good w) Sup.realLlt_contract Sup.realLlt_complete rfl
  obtain ⟨X, ST, h0, h1, -, -, h2⟩ := C92_centering Gap.exEnv Gap.exEnv_sqrt rfl Iteration.ex_solves _ _ _ hr
    (exBall_cones w) 1 (fun u => if u = 0 then 1 / 2 else 0) (exBall_central w)
  obtain ⟨n, hn⟩ := exists_nat_ge
    (40 * distance (Whole.startEs (exBall w)) (1 * 1) (fun u => if u = 0 then 1 / 2 else 0) + 1 + (0 : Nat))
  have hrun := run (X := X) (ST := ST) Gap.exEnv_sqrt rfl Iteration.ex_solves (h0 ▸ hr) (h0 ▸ exBall_cones w) h1
  exact ⟨_, X n, _, _, _, _, (hrun n).2.2.1, (hrun n).2.1, h1 n, h1 (n + 1), (h2 0 n hn).1⟩

end Verif.ConeCentering
