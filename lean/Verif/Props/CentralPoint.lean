import Verif.Lemmas.CentralExists
import Verif.Props.Centering

/-!
# C89: the central path, and a bound on the number of centering steps

For linear inequalities and convex quadratic costs: a barrier parameter has a central point if and only if the program
and its dual have interior points, and then C88 gives a bound on the number of iterations in terms of these.
-/

namespace Verif.Centering

open Finset Iteration.Spec Whole.Spec Spec
open Verif.Dual

/-- Every barrier parameter has a central point if the program and its dual have interior points, and no barrier
parameter has one otherwise; there is only one. -/
theorem C89_central (p : Iteration.Setup ℝ) (hbs : 0 < p.bs) (hcs : 0 < p.cs) (duals : List (List Nat))
    (x₀ : Iteration.State ℝ) (hr : Ready p duals x₀) (hp : Polyhedral x₀.es) (k : ℝ) (hk : 0 < k) :
    ((∃ z, Central x₀.es p.N (fun u => k * p.bs * p.b u) (k * p.cs) z) ↔
      ∃ y x w, Interior x₀.es p.N p.b 1 y x w) ∧
    ∀ z z', Central x₀.es p.N (fun u => k * p.bs * p.b u) (k * p.cs) z →
      Central x₀.es p.N (fun u => k * p.bs * p.b u) (k * p.cs) z' → ∀ u < p.N, z' u = z u := by
  have hs := shape_of hr hp
  have hβ : 0 < k * p.bs := mul_pos hk hbs
  have hγ : 0 < k * p.cs := mul_pos hk hcs
  refine ⟨⟨fun ⟨z, hz⟩ => ?_, fun ⟨y, x, w, h⟩ => ?_⟩, fun z z' h h' => central_unique hs hr.determined h h'⟩
  · refine ⟨fun u => (k * p.cs)⁻¹ * z u, fun i r => (k * p.bs)⁻¹ * (1 / slack x₀.es (k * p.cs) z i r),
      fun u => (k * p.bs)⁻¹ * z u, fun i hi r hr => ?_, fun i hi r hr => ?_, fun u hu => ?_⟩
    · have h1 := hz.interior i hi r hr
      have h2 : slack x₀.es 1 (fun u => (k * p.cs)⁻¹ * z u) i r = (k * p.cs)⁻¹ * slack x₀.es (k * p.cs) z i r := by
        unfold slack
        rw [mul_sub, mul_sum, ← mul_assoc, inv_mul_cancel₀ hγ.ne']
        congr 1
        exact sum_congr rfl fun j _ => by ring
      rw [h2]
      positivity
    · have h1 := hz.interior i hi r hr
      positivity
    · rw [balance_mul, gradients_mul hs, ← mul_add, hz.stationary u hu, inv_mul_cancel_left₀ hβ.ne']
  · exact central_exists hs hr.determined (interior_scale hs h hβ hγ).1

/-- The number of iterations with a fixed barrier parameter, from every start.  `μ` and `ν` compare the interior points
with the scaling points of the start. -/
theorem C89_iterations (v : Env ℝ) (hv : ∀ x, 0 ≤ x → SolveLoop.Spec.SqrtAt v.sqrt x) (hexp : v.exp = Real.exp)
    (hs : ∀ n, MatrixExp.Spec.Solves (v.solve n)) (p : Iteration.Setup ℝ) (hbs : 0 < p.bs) (hcs : 0 < p.cs)
    (duals : List (List Nat)) (x₀ : Iteration.State ℝ) (hr : Ready p duals x₀) (hp : Polyhedral x₀.es)
    (y : Nat → ℝ) (x : Nat → Nat → ℝ) (w : Nat → ℝ) (hI : Interior x₀.es p.N p.b 1 y x w) (k : ℝ) (hk : 0 < k)
    (μ ν : ℝ) (hμ : 0 < μ) (hν : 0 < ν)
    (hx : ∀ i < x₀.es.length, ∀ r < (con (nth x₀.es i).item).n, μ * weight (nth x₀.es i).item r ≤ k * p.bs * x i r)
    (hy : ∀ i < x₀.es.length, ∀ r < (con (nth x₀.es i).item).n,
      ν ≤ weight (nth x₀.es i).item r * (k * p.cs * slack x₀.es 1 y i r)) :
    ∃ (X : Nat → Iteration.State ℝ) (ST : Nat → Iteration.Step ℝ), X 0 = x₀ ∧
      (∀ l, Iteration.iterate v p k (X l) = .ok (some (ST l, X (l + 1)))) ∧
      ∀ m n : Nat, 40 * ((count x₀.es + k ^ 2 * p.bs * p.cs * product x₀.es 1 y x +
          curvature x₀.es p.N (fun u => k * p.bs * w u - k * p.cs * y u) / 4) * (1 / μ + 1 / ν) -
          2 * count x₀.es) + 1 + m ≤ n →
        (ST n).norm ≤ 1 ∧ (ST n).normsqrd ≤ 1 / 2 * (1 / 2) ^ 2 ^ m ∧
        Gap.Spec.Feasible x₀.es (fun u => (ST n).y u / (k * p.cs)) ∧ ∀ z', Gap.Spec.Feasible x₀.es z' →
          Gap.Spec.objective p.N p.b (p.cs / p.bs) x₀.es z' ≤
            Gap.Spec.objective p.N p.b (p.cs / p.bs) x₀.es (fun u => (ST n).y u / (k * p.cs)) +
              (rank x₀.es - (ST n).normsqrd) / (k ^ 2 * p.bs * p.cs) := by
  have hsh := shape_of hr hp
  obtain ⟨h1, h2, h3⟩ := interior_scale hsh hI (mul_pos hk hbs) (mul_pos hk hcs)
  obtain ⟨z, hz⟩ := central_exists hsh hr.determined h1
  have hd := interior_distance hsh h1 hz (weight_pos hr.good hp) hμ hν hx fun i hi r hr' => by
    rw [h2]
    exact hy i hi r hr'
  rw [h3, show k * p.bs * (k * p.cs) = k ^ 2 * p.bs * p.cs by ring] at hd
  obtain ⟨X, ST, g0, g1, -, -, g2⟩ := C88_centering v hv hexp hs p duals x₀ hr hp k z hz
  obtain ⟨X', ST', f0, f1, f2⟩ := C88_optimal v hv hexp hs p hbs hcs duals x₀ hr hp k hk z hz
  have hX : ∀ l, X' l = X l := by
    intro l
    induction l with
    | zero => rw [f0, g0]
    | succ l ih =>
      have := f1 l
      rw [ih, g1 l, Outcome.ok.injEq, Option.some.injEq, Prod.mk.injEq] at this
      exact this.2.symm
  refine ⟨X, ST, g0, g1, fun m n hn => ?_⟩
  have hst : ST' n = ST n := by
    have := f1 n
    rw [hX n, g1 n, Outcome.ok.injEq, Option.some.injEq, Prod.mk.injEq] at this
    exact this.1.symm
  have hm : (0 : ℝ) ≤ m := Nat.cast_nonneg m
  have e1 := f2 n (by linarith)
  rw [hst] at e1
  obtain ⟨e2, e3⟩ := g2 m n (by linarith)
  exact ⟨e2, e3, e1⟩

/-! ### An example -/

/-- Interior points of `-1 ≤ y ≤ 1` with cost `-4/3`: the point zero, and the dual variables `7/3` and `1`. -/
theorem ex_interior (w : Linear.Ws ℝ) : Interior (Whole.startEs (Whole.exLinear (-4 / 3) 2 w)) 1
    (Whole.exLinear (-4 / 3) 2 w).b 1 (fun _ => 0) (fun _ r => if r = 0 then 7 / 3 else 1) (fun _ => 0) := by
  refine ⟨fun i hi r hr => ?_, fun i hi r hr => ?_, fun u hu => ?_⟩
  · have hi' : i = 0 := by
      have : i < 1 := hi
      omega
    subst hi'
    norm_num [slack, Whole.startEs, Whole.identity, Whole.exLinear, nth, con, Whole.setIdentity]
  · split_ifs <;> norm_num
  · have hu' : u = 0 := by omega
    subst hu'
    norm_num [Whole.startEs, Whole.identity, Whole.exLinear, nth, con, Whole.setIdentity, balance, gradients,
      gradient, Sup.Spec.ventry, sum_range_succ, Whole.Program.b]

/-- The hypotheses of `C89_iterations` (and of `C89_central`), from scaling points at one. -/
example (w : Linear.Ws ℝ) (mat : Sup.Store ℝ) : ∃ (kkt : Sup.Kkt) (X : Nat → Iteration.State ℝ)
    (ST : Nat → Iteration.Step ℝ),
    (∀ l, Iteration.iterate Gap.exEnv ⟨1, (Whole.exLinear (-4 / 3) 2 w).b, 1, 1, kkt, false, 1, Sup.realLlt,
      fun _ _ b => b⟩ 1 (X l) = .ok (some (ST l, X (l + 1)))) ∧
    ∀ n, 270 ≤ n → (ST n).normsqrd ≤ 1 / 8 := by
  obtain ⟨-, kkt, -, hr, -⟩ := Whole.start_ready (l := ⟨false, 1, Sup.realLlt, fun _ _ b => b, mat⟩)
    (Whole.exLinear_good (-4 / 3) 1 w).1 Sup.realLlt_contract Sup.realLlt_complete rfl
  obtain ⟨X, ST, -, h1, h2⟩ := C89_iterations Gap.exEnv Gap.exEnv_sqrt rfl Iteration.ex_solves _ one_pos one_pos _ _ hr
    (fun e he => Or.inl (by
      simp only [Whole.startEs, Whole.identity, Whole.exLinear, List.map_cons, List.map_nil, List.mem_cons,
        List.not_mem_nil, or_false] at he
      subst he
      exact ⟨_, _, rfl⟩)) _ _ _ (ex_interior w) 1 one_pos 1 1 one_pos one_pos
    (fun i hi r hr => by
      have hi' : i = 0 := by
        have : i < 1 := hi
        omega
      subst hi'
      split_ifs <;> norm_num [weight, Whole.startEs, Whole.identity, Whole.exLinear, nth, Whole.setIdentity,
        Linear.setIdentity])
    (fun i hi r hr => by
      have hi' : i = 0 := by
        have : i < 1 := hi
        omega
      subst hi'
      norm_num [slack, weight, Whole.startEs, Whole.identity, Whole.exLinear, nth, con, Whole.setIdentity,
        Linear.setIdentity])
  refine ⟨kkt, X, ST, h1, fun n hn => ?_⟩
  have e1 : count (Whole.startEs (Whole.exLinear (-4 / 3) 2 w)) = 2 := by
    norm_num [count, Whole.startEs, Whole.identity, Whole.exLinear, nth, con, Whole.setIdentity]
  have e2 : product (Whole.startEs (Whole.exLinear (-4 / 3) 2 w)) 1 (fun _ => 0)
      (fun _ r => if r = 0 then 7 / 3 else 1) = 10 / 3 := by
    norm_num [product, slack, Whole.startEs, Whole.identity, Whole.exLinear, nth, con, Whole.setIdentity,
      sum_range_succ]
  have e3 : curvature (Whole.startEs (Whole.exLinear (-4 / 3) 2 w)) 1 (fun _ => 1 * 1 * 0 - 1 * 1 * 0) = 0 := by
    simp [curvature]
  have := (h2 1 n (by
    have e3' := e3
    show 40 * ((count (Whole.startEs (Whole.exLinear (-4 / 3) 2 w)) + 1 ^ 2 * 1 * 1 *
      product (Whole.startEs (Whole.exLinear (-4 / 3) 2 w)) 1 (fun _ => 0) (fun _ r => if r = 0 then 7 / 3 else 1) +
      curvature (Whole.startEs (Whole.exLinear (-4 / 3) 2 w)) 1 (fun _ => 1 * 1 * 0 - 1 * 1 * 0) / 4) * (1 / 1 + 1 / 1) -
      2 * count (Whole.startEs (Whole.exLinear (-4 / 3) 2 w))) + 1 + ((1 : Nat) : ℝ) ≤ n
    rw [e1, e2, e3]
    have : (270 : ℝ) ≤ n := by exact_mod_cast hn
    push_cast
    linarith)).2.1
  norm_num at this
  linarith

end Verif.Centering
