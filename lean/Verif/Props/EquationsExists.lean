import Verif.Lemmas.EquationsExists
import Verif.Props.Equations

/-!
# C101: central points of programs with equations, and the number of iterations from any start

C100 assumes a central point, and its number of iterations contains the distance from it.  Here central points exist exactly
if the program and its dual have interior points, they are unique up to multipliers, and the distance is bounded by data of
these interior points.  As in C100, the number of iterations is bounded only while no pivot is replaced (F89).
-/

namespace Verif.MatrixCentering

open Finset Verif.Dual Iteration.Spec
open Whole.Spec (nth)
open Centering.Spec (curvature)
open Gap.Spec (Feasible objective)
open Spec (Short CommonUpdate CentralOn Equations ReadyOn distance unknowns Point DualAbove SlackAbove products StrictOn
  DeterminedOn Multiplier reactions)

/-- There is a central point if and only if the program and its dual have interior points, which satisfy the equations, and
up to the multipliers it is unique. -/
theorem C101_central (p : Iteration.Setup ℝ) (hbs : 0 < p.bs) (hcs : 0 < p.cs) (duals : List (List Nat))
    (x₀ : Iteration.State ℝ) (hr : ReadyOn p duals x₀) (hd : DeterminedOn p.N x₀.es) (k : ℝ) (hk : 0 < k) :
    ((∃ z, CentralOn x₀.es p.N (fun u => k * p.bs * p.b u) (k * p.cs) z) ↔
      ∃ y X w l, StrictOn x₀.es p.N p.b 1 y X w l) ∧
    ∀ z z', CentralOn x₀.es p.N (fun u => k * p.bs * p.b u) (k * p.cs) z →
      CentralOn x₀.es p.N (fun u => k * p.bs * p.b u) (k * p.cs) z' →
      ∀ u < p.N, Multiplier x₀.es u ∨ z' u = z u := by
  have hs : EqShape x₀.es p.N := ⟨hr.good, hr.usable⟩
  have hβ : 0 < k * p.bs := mul_pos hk hbs
  have hγ : 0 < k * p.cs := mul_pos hk hcs
  refine ⟨⟨fun ⟨z, hz⟩ => ?_, fun ⟨y, X, w, l, h⟩ => ?_⟩, fun z z' h h' => centralOn_unique hs hd h h'⟩
  · obtain ⟨hz, hE⟩ := (centralOn_iff _ _ _ _ _).1 hz
    have hE' := equations_scale (a := (k * p.cs)⁻¹) hE
    rw [inv_mul_cancel₀ hγ.ne'] at hE'
    refine ⟨fun u => (k * p.cs)⁻¹ * z u, fun i => Point.smul (k * p.bs)⁻¹
      (inversePoint (nth (x₀.es.map soft) i).item (nth (x₀.es.map soft) i).vars.length (k * p.cs)
        (unknowns (nth (x₀.es.map soft) i) z)),
      fun u => (k * p.bs)⁻¹ * z u, fun u => (k * p.bs)⁻¹ * z u, (strictOn_iff _ _ _ _ _ _ _ _).2
        ⟨⟨fun e he => ?_, fun i hi => ?_, fun u hu => ?_⟩, hE'⟩⟩
    · have h1 := (item_scale (hs.soft.kind e he) (inv_pos.2 hγ)).1 _ _ (hz.inside e he)
      rw [inv_mul_cancel₀ hγ.ne'] at h1
      exact h1
    · have hm := Whole.nth_mem hi
      exact (item_scale (hs.soft.kind _ hm) (inv_pos.2 hβ)).2.1 _ (inversePoint_spec (hs.soft.kind _ hm) (hz.inside _ hm)).1
    · have h1 := hz.stationary u hu
      have h2 : p.b u - reactions x₀.es (fun u => (k * p.bs)⁻¹ * z u) u =
          (k * p.bs)⁻¹ * (k * p.bs * p.b u - reactions x₀.es z u) := by
        rw [reactions_scale, mul_sub, inv_mul_cancel_left₀ hβ.ne']
      rw [h2, ← h1, mul_sum]
      refine sum_congr rfl fun i hi => ?_
      have hm := Whole.nth_mem (mem_range.1 hi)
      obtain ⟨-, -, h3, -, -, -, h4⟩ := item_scale (hs.soft.kind _ hm) (inv_pos.2 hβ)
      rw [← ventry_scale]
      refine Whole.ventry_congr (fun j _ => ?_) u
      rw [h3, ← (inversePoint_spec (hs.soft.kind _ hm) (hz.inside _ hm)).2 j, mul_add, ← h4]
      rfl
  · exact centralOn_exists hs hr.separate hd (strictOn_scale hs h hβ hγ).1

/-- The number of iterations with a fixed barrier parameter, from every start, if no pivot is replaced and no step is too
long.  `μ` and `ν` compare the interior points `X` and `y` with the scaling points of the start.  In all iterations the
equations hold.  (Without the assumption on the pivots they need not, by `C100_equations_violated`.) -/
theorem C101_iterations_partial (v : Env ℝ) (hv : ∀ x, 0 ≤ x → SolveLoop.Spec.SqrtAt v.sqrt x) (hexp : v.exp = Real.exp)
    (ht : Lmi.Spec.TriEigenvalues v.tri) (hs : ∀ n, MatrixExp.Spec.Solves (v.solve n)) (p : Iteration.Setup ℝ)
    (hbs : 0 < p.bs) (hcs : 0 < p.cs) (duals : List (List Nat)) (x₀ : Iteration.State ℝ) (hr : ReadyOn p duals x₀)
    (hd : DeterminedOn p.N x₀.es) (hcom : CommonUpdate x₀.es) (k : ℝ) (hk : 0 < k)
    (hb : ∀ (X : Nat → Iteration.State ℝ) (ST : Nat → Iteration.Step ℝ) (n : Nat), X 0 = x₀ →
      (∀ l ≤ n, Iteration.iterate v p k (X l) = .ok (some (ST l, X (l + 1)))) → Unregularized (ST n) ∧
        (2 < (ST n).normsqrd →
          ∀ e ∈ (X n).es, Short (k * p.cs) (SolveLoop.stepSize (ST n).norm) (unknowns e (ST n).y) e.item))
    (y : Nat → ℝ) (P : Nat → Point) (w l : Nat → ℝ) (hI : StrictOn x₀.es p.N p.b 1 y P w l)
    (μ ν : ℝ) (hμ : 0 < μ) (hν : 0 < ν) (hP : ∀ i < x₀.es.length, DualAbove μ (nth x₀.es i).item (P i))
    (hy : ∀ i < x₀.es.length, SlackAbove ν (nth x₀.es i).item (nth x₀.es i).vars.length 1 (unknowns (nth x₀.es i) y)) :
    ∃ (X : Nat → Iteration.State ℝ) (ST : Nat → Iteration.Step ℝ), X 0 = x₀ ∧
      (∀ l, Iteration.iterate v p k (X l) = .ok (some (ST l, X (l + 1)))) ∧
      (∀ l, Equations x₀.es (k * p.cs) (ST l).y) ∧
      ∀ m n : Nat, 40 * ((rank x₀.es + k ^ 2 * p.bs * p.cs * products x₀.es 1 y P +
          curvature x₀.es p.N (fun u => k * p.bs * w u - k * p.cs * y u) / 4) *
          (1 / (k * p.bs * μ) + 1 / (k * p.cs * ν)) - 2 * rank x₀.es) + 1 + m ≤ n →
        0 ≤ (ST n).normsqrd ∧ (ST n).normsqrd ≤ 1 / 2 * (1 / 2) ^ 2 ^ m ∧
        Feasible x₀.es (fun u => (ST n).y u / (k * p.cs)) ∧ ∀ z', Feasible x₀.es z' →
          objective p.N p.b (p.cs / p.bs) x₀.es z' ≤
            objective p.N p.b (p.cs / p.bs) x₀.es (fun u => (ST n).y u / (k * p.cs)) +
              (rank x₀.es - (ST n).normsqrd) / (k ^ 2 * p.bs * p.cs) := by
  have hsh : EqShape x₀.es p.N := ⟨hr.good, hr.usable⟩
  have hβ : 0 < k * p.bs := mul_pos hk hbs
  have hγ : 0 < k * p.cs := mul_pos hk hcs
  obtain ⟨h1, h2⟩ := strictOn_scale hsh hI hβ hγ
  obtain ⟨z, hz⟩ := centralOn_exists hsh hr.separate hd h1
  have h3 := interior_distance_eq hsh h1 hz (mul_pos hβ hμ) (mul_pos hγ hν)
    (fun i hi => by
      have hi' : i < (x₀.es.map soft).length := by rwa [List.length_map]
      have h4 := (item_scale (hsh.soft.kind _ (Whole.nth_mem hi')) hβ).2.2.2.2.1 μ (P i)
      rw [nth_soft hi, soft_dual, soft_dual] at h4
      exact h4 (hP i hi))
    (fun i hi => by
      have hi' : i < (x₀.es.map soft).length := by rwa [List.length_map]
      have h4 := (item_scale (hsh.soft.kind _ (Whole.nth_mem hi')) hγ).2.2.2.2.2.1 ν 1 (unknowns (nth x₀.es i) y)
      rw [nth_soft hi, soft_slack, soft_slack, mul_one] at h4
      exact h4 (hy i hi))
  obtain ⟨X, ST, h5, h6, hE, -, -, h7⟩ := C100_centering_partial v hv hexp ht hs p hbs hcs duals x₀ hr hcom k hk hb z hz
  refine ⟨X, ST, h5, h6, hE, fun m n hn => h7 m n (le_trans ?_ hn)⟩
  rw [h2, show k * p.bs * (k * p.cs) = k ^ 2 * p.bs * p.cs by ring] at h3
  linarith

/-! ### An example -/

theorem exOn_determined (W t l : Nat → ℝ) : DeterminedOn 3 (exOn W t l) := by
  intro z hz _ u hu
  have h1 := hz _ (List.mem_cons_self ..)
  have h2 := h1 0 (by decide)
  have h3 := h1 1 (by decide)
  simp [sum_range_succ, unknowns] at h2 h3
  have : u = 0 ∨ u = 1 ∨ u = 2 := by omega
  rcases this with rfl | rfl | rfl
  · exact Or.inr h3
  · exact Or.inl ⟨_, List.mem_cons_of_mem _ (List.mem_cons_self ..), _, rfl, 0, one_pos, rfl⟩
  · exact Or.inr h2

/-- Interior points: `y₀ = 1/2` and `y₂ = 0`, the dual vector `(1, 1)`, and the multiplier `2`. -/
theorem exOn_strict (W t l : Nat → ℝ) :
    StrictOn (exOn W t l) 3 exOnSetup.b 1 (fun u => if u = 0 then 1 / 2 else 0)
      (fun _ => ⟨fun _ => ⟨1, fun _ => 0⟩, fun _ => 0, fun _ _ _ => 0⟩) (fun _ => 0) (fun _ => 2) := by
  refine ⟨fun e he => ?_, fun e he o ho r hr => ?_, fun i hi => ?_, fun u hu => ?_⟩
  · simp only [exOn, List.mem_cons, List.not_mem_nil, or_false] at he
    rcases he with rfl | rfl
    · intro r hr
      have : r = 0 ∨ r = 1 := by
        have : r < 2 := hr
        omega
      rcases this with rfl | rfl <;>
      · simp [Spin.Spec.Interior, Spec.cellSlack, ConeCentering.Spec.affine, ConeCentering.Spec.column, unknowns,
          ConeCentering.Spec.form, sum_range_succ]
        try norm_num
    · intro r hr
      exact absurd hr (Nat.not_lt_zero r)
  · simp only [exOn, List.mem_cons, List.not_mem_nil, or_false] at he
    rcases he with rfl | rfl
    · cases ho
    · cases ho
      simp [unknowns]
  · have : i = 0 ∨ i = 1 := by
      have : i < 2 := hi
      omega
    rcases this with rfl | rfl
    · intro r _
      simp [Spin.Spec.Interior, ConeCentering.Spec.form, exOn, nth]
    · intro r hr
      exact absurd hr (Nat.not_lt_zero r)
  · have : u = 0 ∨ u = 1 ∨ u = 2 := by omega
    rcases this with rfl | rfl | rfl <;>
    · simp [exOn, sum_range_succ, Whole.Spec.nth, Sup.Spec.ventry, Spec.pull, Spec.reactions, Spec.reaction,
        ConeCentering.Spec.cells, ConeCentering.Spec.pair, ConeCentering.Spec.column, ConeCentering.Spec.form, unknowns, exOnSetup,
        Centering.Spec.gradient]
      try norm_num

theorem exOnStart_above : (∀ i < 2, DualAbove (1 / 4) (nth exOnStart.es i).item
      ⟨fun _ => ⟨1, fun _ => 0⟩, fun _ => 0, fun _ _ _ => 0⟩) ∧
    ∀ i < 2, SlackAbove (1 / 2) (nth exOnStart.es i).item (nth exOnStart.es i).vars.length 1
      (unknowns (nth exOnStart.es i) fun u => if u = 0 then 1 / 2 else 0) := by
  constructor <;> intro i hi
  · have : i = 0 ∨ i = 1 := by omega
    rcases this with rfl | rfl
    · intro r hr
      have : r = 0 ∨ r = 1 := by
        have : r < 2 := hr
        omega
      rcases this with rfl | rfl <;>
      · simp [ConeCentering.Spec.Below, Spin.Spec.Cone, ConeCentering.Spec.form, ConeCentering.Spec.point, exOnStart, exOn, nth]
        try norm_num
    · intro r hr
      exact absurd hr (Nat.not_lt_zero r)
  · have : i = 0 ∨ i = 1 := by omega
    rcases this with rfl | rfl
    · intro r hr
      have : r = 0 ∨ r = 1 := by
        have : r < 2 := hr
        omega
      rcases this with rfl | rfl <;>
      · simp [ConeCentering.Spec.Below, Spin.Spec.Cone, ConeCentering.Spec.form, ConeCentering.Spec.point, exOnStart, exOn, nth,
          ConeCentering.Spec.inverse, ConeCentering.Spec.det, Spec.cellSlack, ConeCentering.Spec.affine,
          ConeCentering.Spec.column, unknowns, sum_range_succ]
        try norm_num
    · intro r hr
      exact absurd hr (Nat.not_lt_zero r)

/-- The hypotheses of `C101_central` hold for the start of the example of C100: it has a central point, whose first unknown
is `1/2`. -/
example : (∃ z, CentralOn exOnStart.es 3 (fun u => 1 * 1 * exOnSetup.b u) (1 * 1) z) ∧
    ∀ z, CentralOn exOnStart.es 3 (fun u => 1 * 1 * exOnSetup.b u) (1 * 1) z → z 0 = 1 / 2 ∧ z 2 = 0 := by
  obtain ⟨h1, h2⟩ := C101_central exOnSetup one_pos one_pos _ exOnStart (exOnNear_ready exOnStart_near).1
    (exOn_determined _ _ _) 1 one_pos
  refine ⟨h1.2 ⟨_, _, _, _, exOn_strict _ _ _⟩, fun z hz => ?_⟩
  have h3 := h2 _ _ (exOn_central _ _ _) hz
  have hno : ∀ u, u ≠ 1 → ¬ Multiplier exOnStart.es u := by
    rintro u hu ⟨e, he, o, ho, r, hr, rfl⟩
    simp only [exOnStart, exOn, List.mem_cons, List.not_mem_nil, or_false] at he
    rcases he with rfl | rfl
    · cases ho
    · cases ho
      obtain rfl : r = 0 := by
        simp at hr
        exact hr
      exact hu rfl
  refine ⟨?_, ?_⟩
  · have := (h3 0 (by decide)).resolve_left (hno 0 (by decide))
    simpa [exOnY] using this
  · have := (h3 2 (by decide)).resolve_left (hno 2 (by decide))
    simpa [exOnY] using this

/-- The hypotheses of `C101_iterations_partial` hold for it, and the number is `801 + m`. -/
example : ∃ (v : Env ℝ) (X : Nat → Iteration.State ℝ) (ST : Nat → Iteration.Step ℝ), X 0 = exOnStart ∧
    (∀ l, Iteration.iterate v exOnSetup 1 (X l) = .ok (some (ST l, X (l + 1)))) ∧
    ∀ m n : Nat, 801 + m ≤ n → (ST n).normsqrd ≤ 1 / 2 * (1 / 2) ^ 2 ^ m := by
  obtain ⟨tri, ht⟩ := exists_tri
  obtain ⟨hr, hc, -⟩ := exOnNear_ready exOnStart_near
  have hnear : ∀ (X : Nat → Iteration.State ℝ) (ST : Nat → Iteration.Step ℝ) (n : Nat), X 0 = exOnStart →
      (∀ l ≤ n, Iteration.iterate { Gap.exEnv with tri := tri } exOnSetup 1 (X l) = .ok (some (ST l, X (l + 1)))) →
      ∀ l ≤ n, ExOnNear (X l) := fun X ST n h0 h l hl => by
    induction l with
    | zero => exact h0 ▸ exOnStart_near
    | succ l ih => exact (exOnNear_next ht (ih (by omega)) (h l (by omega))).2.2
  obtain ⟨X, ST, h0, hrun, -, hfin⟩ := C101_iterations_partial { Gap.exEnv with tri := tri } Gap.exEnv_sqrt rfl ht
    Iteration.ex_solves exOnSetup one_pos one_pos _ exOnStart hr (exOn_determined _ _ _) hc 1 one_pos (fun X ST n h0 h => by
      obtain ⟨h1, h2, -⟩ := exOnNear_next ht (hnear X ST n h0 h n le_rfl) (h n le_rfl)
      exact ⟨h1, fun _ => h2⟩) _ _ _ _ (exOn_strict _ _ _) (1 / 4) (1 / 2) (by norm_num) (by norm_num)
    exOnStart_above.1 exOnStart_above.2
  refine ⟨_, X, ST, h0, hrun, fun m n hn => (hfin m n ?_).2.1⟩
  have hn' : ((801 + m : Nat) : ℝ) ≤ n := by exact_mod_cast hn
  push_cast at hn'
  refine le_trans (le_of_eq ?_) hn'
  have e1 : (rank exOnStart.es : ℝ) = 2 := by
    norm_num [exOnStart, exOn, rank, Item.rank]
  have e2 : products exOnStart.es 1 (fun u => if u = 0 then 1 / 2 else 0)
      (fun _ => ⟨fun _ => ⟨1, fun _ => 0⟩, fun _ => 0, fun _ _ _ => 0⟩) = 2 := by
    simp [products, Spec.product, exOnStart, exOn, nth, sum_range_succ, ConeCentering.Spec.cells, ConeCentering.Spec.pair,
      ConeCentering.Spec.form, Spec.cellSlack, ConeCentering.Spec.affine, ConeCentering.Spec.column, unknowns]
    norm_num
  have e3 : ∀ f, curvature exOnStart.es exOnSetup.N f = 0 := fun f => by
    simp [curvature, Centering.Spec.gradients, exOnStart, exOn, nth, sum_range_succ, Centering.Spec.gradient, Sup.Spec.ventry]
  rw [e1, e2, e3]
  norm_num [exOnSetup]

end Verif.MatrixCentering
