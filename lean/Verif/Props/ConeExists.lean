import Verif.Lemmas.ConeExists
import Verif.Props.ConeCentering

/-!
# C93: central points of second-order and quadratic cones

What C89 says of linear inequalities and quadratic costs, with second-order and quadratic cones.
-/

namespace Verif.ConeCentering

open Finset Iteration.Spec Whole.Spec Spec
open Verif.Dual
open Soc (El)
open Centering.Spec (curvature)

/-- A barrier parameter has a central point if and only if the program and its dual have interior points; so either
all parameters have one, or none.  There is at most one. -/
theorem C93_central (p : Iteration.Setup ℝ) (hbs : 0 < p.bs) (hcs : 0 < p.cs) (duals : List (List Nat))
    (x₀ : Iteration.State ℝ) (hr : Ready p duals x₀) (hp : VectorCones x₀.es) (k : ℝ) (hk : 0 < k) :
    ((∃ z, Central x₀.es p.N (fun u => k * p.bs * p.b u) (k * p.cs) z) ↔
      ∃ y x w, Strict x₀.es p.N p.b 1 y x w) ∧
    ∀ z z', Central x₀.es p.N (fun u => k * p.bs * p.b u) (k * p.cs) z →
      Central x₀.es p.N (fun u => k * p.bs * p.b u) (k * p.cs) z' → ∀ u < p.N, z' u = z u := by
  have hs := (shape_of hr hp).1
  have hβ : 0 < k * p.bs := mul_pos hk hbs
  have hγ : 0 < k * p.cs := mul_pos hk hcs
  refine ⟨⟨fun ⟨z, hz⟩ => ?_, fun ⟨y, x, w, h⟩ => ?_⟩, fun z z' h h' => central_unique hs hr.determined h h'⟩
  · refine ⟨fun u => (k * p.cs)⁻¹ * z u, fun i r => Spin.Spec.smul (k * p.bs)⁻¹
      (inverse (form (nth x₀.es i).item) (slack x₀.es (k * p.cs) z i r)),
      fun u => (k * p.bs)⁻¹ * z u, fun i hi r hr => ?_, fun i hi r hr => ?_, fun u hu => ?_⟩
    · have h1 := slack_smul x₀.es (k * p.cs)⁻¹ (k * p.cs) z i r
      rw [inv_mul_cancel₀ hγ.ne'] at h1
      rw [h1]
      exact interior_smul (hs.kind i hi).form (inv_pos.2 hγ) (hz.interior i hi r hr)
    · exact interior_smul (hs.kind i hi).form (inv_pos.2 hβ)
        (inverse_interior (hs.kind i hi).form (hz.interior i hi r hr))
    · rw [image_smul hs _ _ hu, hs.costs.gradients_mul, ← mul_add, hz.stationary u hu, inv_mul_cancel_left₀ hβ.ne']
  · exact central_exists hs hr.determined (strict_scale hs h hβ hγ).1

/-- The number of iterations with a fixed barrier parameter, from every start.  `μ` and `ν` compare the interior points
with the scaling points of the start, in the order of the cones. -/
theorem C93_iterations (v : Env ℝ) (hv : ∀ x, 0 ≤ x → SolveLoop.Spec.SqrtAt v.sqrt x) (hexp : v.exp = Real.exp)
    (hs : ∀ n, MatrixExp.Spec.Solves (v.solve n)) (p : Iteration.Setup ℝ) (hbs : 0 < p.bs) (hcs : 0 < p.cs)
    (duals : List (List Nat)) (x₀ : Iteration.State ℝ) (hr : Ready p duals x₀) (hp : VectorCones x₀.es)
    (y : Nat → ℝ) (x : Nat → Nat → El ℝ) (w : Nat → ℝ) (hI : Strict x₀.es p.N p.b 1 y x w) (k : ℝ) (hk : 0 < k)
    (μ ν : ℝ) (hμ : 0 < μ) (hν : 0 < ν)
    (hx : ∀ i < x₀.es.length, ∀ r < cells (nth x₀.es i).item, Below (form (nth x₀.es i).item) μ
      (point (nth x₀.es i).item r) (Spin.Spec.smul (k * p.bs) (x i r)))
    (hy : ∀ i < x₀.es.length, ∀ r < cells (nth x₀.es i).item, Below (form (nth x₀.es i).item) ν
      (inverse (form (nth x₀.es i).item) (point (nth x₀.es i).item r))
      (Spin.Spec.smul (k * p.cs) (slack x₀.es 1 y i r))) :
    ∃ (X : Nat → Iteration.State ℝ) (ST : Nat → Iteration.Step ℝ), X 0 = x₀ ∧
      (∀ l, Iteration.iterate v p k (X l) = .ok (some (ST l, X (l + 1)))) ∧
      ∀ m n : Nat, 40 * ((orders x₀.es + k ^ 2 * p.bs * p.cs * product x₀.es 1 y x +
          curvature x₀.es p.N (fun u => k * p.bs * w u - k * p.cs * y u) / 4) * (1 / μ + 1 / ν) -
          2 * orders x₀.es) + 1 + m ≤ n →
        (ST n).norm ≤ 1 ∧ (ST n).normsqrd ≤ 1 / 2 * (1 / 2) ^ 2 ^ m ∧
        Gap.Spec.Feasible x₀.es (fun u => (ST n).y u / (k * p.cs)) ∧ ∀ z', Gap.Spec.Feasible x₀.es z' →
          Gap.Spec.objective p.N p.b (p.cs / p.bs) x₀.es z' ≤
            Gap.Spec.objective p.N p.b (p.cs / p.bs) x₀.es (fun u => (ST n).y u / (k * p.cs)) +
              (rank x₀.es - (ST n).normsqrd) / (k ^ 2 * p.bs * p.cs) := by
  have hsh := (shape_of hr hp).1
  obtain ⟨h1, h2, h3⟩ := strict_scale hsh hI (mul_pos hk hbs) (mul_pos hk hcs)
  obtain ⟨z, hz⟩ := central_exists hsh hr.determined h1
  have hd := interior_distance hsh h1 hz hμ hν hx fun i hi r hr' => by
    rw [h2]
    exact hy i hi r hr'
  rw [h3, show k * p.bs * (k * p.cs) = k ^ 2 * p.bs * p.cs by ring] at hd
  obtain ⟨X, ST, g0, g1, -, -, g2⟩ := C92_centering v hv hexp hs p duals x₀ hr hp k z hz
  obtain ⟨X', ST', f0, f1, f2⟩ := C92_optimal v hv hexp hs p hbs hcs duals x₀ hr hp k hk z hz
  have hX : ∀ l, X' l = X l := by
    intro l
    induction l with
    | zero => rw [f0, g0]
    | succ l ih =>
      have := f1 l
      rw [ih, g1 l, Outcome.ok.injEq, Option.some.injEq, Prod.mk.injEq] at this
      exact this.2.symm
  refine ⟨X, ST, g0, g1, fun m n hn => ?_⟩
  have hst : ST' n = ST n := by
    have := f1 n
    rw [hX n, g1 n, Outcome.ok.injEq, Option.some.injEq, Prod.mk.injEq] at this
    exact this.1.symm
  have hm : (0 : ℝ) ≤ m := Nat.cast_nonneg m
  have e1 := f2 n (by linarith)
  rw [hst] at e1
  obtain ⟨e2, e3⟩ := g2 m n (by linarith)
  exact ⟨e2, e3, e1⟩

/-! ### An example -/

/-- Interior points of `‖y‖ ≤ 1` with cost `-4/3 y₀`: the point zero, and the dual point `(1, 2/3, 0)`. -/
theorem exBall_strict (w : Soc.Ws ℝ) : Strict (Whole.startEs (exBall w)) 2 (exBall w).b 1 (fun _ => 0)
    (fun _ _ => ⟨1, fun l => if l = 0 then 2 / 3 else 0⟩) (fun _ => 0) := by
  refine ⟨fun i hi r hr => ?_, fun i hi r hr => ?_, fun u hu => ?_⟩
  · have hi' : i = 0 := by
      have : i < 1 := hi
      omega
    subst hi'
    constructor <;> norm_num [slack, Whole.startEs, Whole.identity, exBall, nth, Whole.setIdentity, affine, column, form,
      Soc.ofMatrices, Soc.dot, sum_range_succ]
  · have hi' : i = 0 := by
      have : i < 1 := hi
      omega
    subst hi'
    constructor <;> norm_num [Whole.startEs, Whole.identity, exBall, nth, Whole.setIdentity, form,
      Soc.ofMatrices, Soc.dot, sum_range_succ]
  · have : u = 0 ∨ u = 1 := by omega
    rcases this with rfl | rfl
    · norm_num [Whole.startEs, Whole.identity, exBall, nth, Whole.setIdentity, affine, column, form, pair, cells,
        Spec.image, Centering.Spec.gradients, Centering.Spec.gradient, Soc.ofMatrices, Soc.dot,
        Sup.Spec.ventry, sum_range_succ, Whole.Program.b]
    · norm_num [Whole.startEs, Whole.identity, exBall, nth, Whole.setIdentity, affine, column, form, pair, cells,
        Spec.image, Centering.Spec.gradients, Centering.Spec.gradient, Soc.ofMatrices, Soc.dot,
        Sup.Spec.ventry, sum_range_succ, Whole.Program.b]

/-- The hypotheses of `C93_iterations` and of `C93_central`, from scaling points at one. -/
example (w : Soc.Ws ℝ) (mat : Sup.Store ℝ) : ∃ (kkt : Sup.Kkt) (X : Nat → Iteration.State ℝ)
    (ST : Nat → Iteration.Step ℝ),
    (∃ z, Central (Whole.startEs (exBall w)) 2 (fun u => 1 * 1 * (exBall w).b u) (1 * 1) z) ∧
    (∀ l, Iteration.iterate Gap.exEnv ⟨2, (exBall w).b, 1, 1, kkt, false, 1, Sup.realLlt,
      fun _ _ b => b⟩ 1 (X l) = .ok (some (ST l, X (l + 1)))) ∧
    ∀ n, 482 ≤ n → (ST n).normsqrd ≤ 1 / 8 := by
  obtain ⟨-, kkt, -, hr, -⟩ := Whole.start_ready (l := ⟨false, 1, Sup.realLlt, fun _ _ b => b, mat⟩)
    (exBall_good w) Sup.realLlt_contract Sup.realLlt_complete rfl
  obtain ⟨X, ST, -, h1, h2⟩ := C93_iterations Gap.exEnv Gap.exEnv_sqrt rfl Iteration.ex_solves _ one_pos one_pos _ _ hr
    (exBall_cones w) _ _ _ (exBall_strict w) 1 one_pos (1 / 3) 1 (by norm_num) one_pos
    (fun i hi r hr => by
      have hi' : i = 0 := by
        have : i < 1 := hi
        omega
      subst hi'
      constructor <;> norm_num [Spin.Spec.smul, point, form, Whole.startEs, Whole.identity, exBall, nth,
        Whole.setIdentity, Soc.setIdentity, Soc.ofMatrices, Soc.dot, sum_range_succ])
    (fun i hi r hr => by
      have hi' : i = 0 := by
        have : i < 1 := hi
        omega
      subst hi'
      constructor <;> norm_num [Spin.Spec.smul, point, form, slack, inverse, det, affine, column, Whole.startEs,
        Whole.identity, exBall, nth, Whole.setIdentity, Soc.setIdentity, Soc.ofMatrices, Soc.dot, sum_range_succ])
  refine ⟨kkt, X, ST, ?_, h1, fun n hn => ?_⟩
  · exact ((C93_central _ one_pos one_pos _ _ hr (exBall_cones w) 1 one_pos).1).2 ⟨_, _, _, exBall_strict w⟩
  have e1 : orders (Whole.startEs (exBall w)) = 2 := by
    norm_num [orders, order, cells, Whole.startEs, Whole.identity, exBall, nth, Whole.setIdentity]
  have e2 : product (Whole.startEs (exBall w)) 1 (fun _ => 0)
      (fun _ _ => ⟨1, fun l => if l = 0 then 2 / 3 else 0⟩) = 2 := by
    norm_num [product, pair, form, slack, cells, affine, column, Whole.startEs, Whole.identity, exBall, nth,
      Whole.setIdentity, Soc.ofMatrices, Soc.dot, sum_range_succ]
  have e3 : curvature (Whole.startEs (exBall w)) 2 (fun u => 1 * 1 * 0 - 1 * 1 * 0) = 0 := by
    norm_num [curvature, sum_range_succ]
  have := (h2 1 n (by
    show 40 * ((orders (Whole.startEs (exBall w)) + 1 ^ 2 * 1 * 1 * product (Whole.startEs (exBall w)) 1 (fun _ => 0)
      (fun _ _ => ⟨1, fun l => if l = 0 then 2 / 3 else 0⟩) +
      curvature (Whole.startEs (exBall w)) 2 (fun u => 1 * 1 * 0 - 1 * 1 * 0) / 4) * (1 / (1 / 3) + 1 / 1) -
      2 * orders (Whole.startEs (exBall w))) + 1 + ((1 : Nat) : ℝ) ≤ n
    rw [e1, e2, e3]
    have : (482 : ℝ) ≤ n := by exact_mod_cast hn
    push_cast
    linarith)).2.1
  norm_num at this
  linarith

end Verif.ConeCentering
