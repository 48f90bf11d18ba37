import Verif.Lemmas.MatrixExists
import Verif.Props.MatrixPath

/-!
# C98: central points of programs with matrix inequalities, and the number of iterations from any start

C97 assumes a central point, and its number of iterations contains the distance from it.  Here central points exist exactly
if the program and its dual have interior points, they are unique, and the distance is bounded by data of these interior
points.
-/

namespace Verif.MatrixCentering

open Finset Verif.Dual Iteration.Spec
open Whole.Spec (nth)
open Centering.Spec (curvature)
open Gap.Spec (Feasible objective)
open Spec (Short SameUpdate Central distance unknowns Point Strict DualAbove SlackAbove products)

/-- There is a central point if and only if the program and its dual have interior points, and it is unique. -/
theorem C98_central (p : Iteration.Setup ℝ) (hbs : 0 < p.bs) (hcs : 0 < p.cs) (duals : List (List Nat))
    (x₀ : Iteration.State ℝ) (hr : Ready p duals x₀) (k : ℝ) (hk : 0 < k) :
    ((∃ z, Central x₀.es p.N (fun u => k * p.bs * p.b u) (k * p.cs) z) ↔
      ∃ y X w, Strict x₀.es p.N p.b 1 y X w) ∧
    ∀ z z', Central x₀.es p.N (fun u => k * p.bs * p.b u) (k * p.cs) z →
      Central x₀.es p.N (fun u => k * p.bs * p.b u) (k * p.cs) z' → ∀ u < p.N, z' u = z u := by
  have hs := conicShape_of hr
  have hβ : 0 < k * p.bs := mul_pos hk hbs
  have hγ : 0 < k * p.cs := mul_pos hk hcs
  refine ⟨⟨fun ⟨z, hz⟩ => ?_, fun ⟨y, X, w, h⟩ => ?_⟩, fun z z' h h' => central_unique hs hr.determined h h'⟩
  · refine ⟨fun u => (k * p.cs)⁻¹ * z u, fun i => Point.smul (k * p.bs)⁻¹
      (inversePoint (nth x₀.es i).item (nth x₀.es i).vars.length (k * p.cs) (unknowns (nth x₀.es i) z)),
      fun u => (k * p.bs)⁻¹ * z u, fun e he => ?_, fun i hi => ?_, fun u hu => ?_⟩
    · have h1 := (item_scale (hs.kind e he) (inv_pos.2 hγ)).1 _ _ (hz.inside e he)
      rw [inv_mul_cancel₀ hγ.ne'] at h1
      exact h1
    · have hm := Whole.nth_mem hi
      exact (item_scale (hs.kind _ hm) (inv_pos.2 hβ)).2.1 _ (inversePoint_spec (hs.kind _ hm) (hz.inside _ hm)).1
    · have h1 := hz.stationary u hu
      have h2 : p.b u = (k * p.bs)⁻¹ * (k * p.bs * p.b u) := (inv_mul_cancel_left₀ hβ.ne' _).symm
      rw [h2, ← h1, mul_sum]
      refine sum_congr rfl fun i hi => ?_
      have hm := Whole.nth_mem (mem_range.1 hi)
      obtain ⟨-, -, h3, -, -, -, h4⟩ := item_scale (hs.kind _ hm) (inv_pos.2 hβ)
      rw [← ventry_scale]
      refine Whole.ventry_congr (fun j _ => ?_) u
      rw [h3, ← (inversePoint_spec (hs.kind _ hm) (hz.inside _ hm)).2 j, mul_add, ← h4]
      rfl
  · exact central_exists hs hr.determined (strict_scale hs h hβ hγ).1

/-- The number of iterations with a fixed barrier parameter, from every start, if no step is too long.  `μ` and `ν` compare the
interior points `X` and `y` with the scaling points of the start. -/
theorem C98_iterations (v : Env ℝ) (hv : ∀ x, 0 ≤ x → SolveLoop.Spec.SqrtAt v.sqrt x) (hexp : v.exp = Real.exp)
    (ht : Lmi.Spec.TriEigenvalues v.tri) (hs : ∀ n, MatrixExp.Spec.Solves (v.solve n)) (p : Iteration.Setup ℝ)
    (hbs : 0 < p.bs) (hcs : 0 < p.cs) (duals : List (List Nat)) (x₀ : Iteration.State ℝ) (hr : Ready p duals x₀)
    (hsame : SameUpdate x₀.es) (k : ℝ) (hk : 0 < k)
    (hb : ∀ (X : Nat → Iteration.State ℝ) (ST : Nat → Iteration.Step ℝ) (n : Nat), X 0 = x₀ →
      (∀ l ≤ n, Iteration.iterate v p k (X l) = .ok (some (ST l, X (l + 1)))) → 2 < (ST n).normsqrd →
      ∀ e ∈ (X n).es, Short (k * p.cs) (SolveLoop.stepSize (ST n).norm) (unknowns e (ST n).y) e.item)
    (y : Nat → ℝ) (P : Nat → Point) (w : Nat → ℝ) (hI : Strict x₀.es p.N p.b 1 y P w)
    (μ ν : ℝ) (hμ : 0 < μ) (hν : 0 < ν) (hP : ∀ i < x₀.es.length, DualAbove μ (nth x₀.es i).item (P i))
    (hy : ∀ i < x₀.es.length, SlackAbove ν (nth x₀.es i).item (nth x₀.es i).vars.length 1 (unknowns (nth x₀.es i) y)) :
    ∃ (X : Nat → Iteration.State ℝ) (ST : Nat → Iteration.Step ℝ), X 0 = x₀ ∧
      (∀ l, Iteration.iterate v p k (X l) = .ok (some (ST l, X (l + 1)))) ∧
      ∀ m n : Nat, 40 * ((rank x₀.es + k ^ 2 * p.bs * p.cs * products x₀.es 1 y P +
          curvature x₀.es p.N (fun u => k * p.bs * w u - k * p.cs * y u) / 4) *
          (1 / (k * p.bs * μ) + 1 / (k * p.cs * ν)) - 2 * rank x₀.es) + 1 + m ≤ n →
        0 ≤ (ST n).normsqrd ∧ (ST n).normsqrd ≤ 1 / 2 * (1 / 2) ^ 2 ^ m ∧
        Feasible x₀.es (fun u => (ST n).y u / (k * p.cs)) ∧ ∀ z', Feasible x₀.es z' →
          objective p.N p.b (p.cs / p.bs) x₀.es z' ≤
            objective p.N p.b (p.cs / p.bs) x₀.es (fun u => (ST n).y u / (k * p.cs)) +
              (rank x₀.es - (ST n).normsqrd) / (k ^ 2 * p.bs * p.cs) := by
  have hsh := conicShape_of hr
  have hβ : 0 < k * p.bs := mul_pos hk hbs
  have hγ : 0 < k * p.cs := mul_pos hk hcs
  obtain ⟨h1, h2⟩ := strict_scale hsh hI hβ hγ
  obtain ⟨z, hz⟩ := central_exists hsh hr.determined h1
  have h3 := interior_distance hsh h1 hz (mul_pos hβ hμ) (mul_pos hγ hν)
    (fun i hi => (item_scale (hsh.kind _ (Whole.nth_mem hi)) hβ).2.2.2.2.1 _ _ (hP i hi))
    (fun i hi => by
      have h4 := (item_scale (hsh.kind _ (Whole.nth_mem hi)) hγ).2.2.2.2.2.1 _ _ _ (hy i hi)
      rw [mul_one] at h4
      exact h4)
  obtain ⟨X, ST, h5, h6, -, -, h7⟩ := C97_centering v hv hexp ht hs p hbs hcs duals x₀ hr hsame k hk hb z hz
  refine ⟨X, ST, h5, h6, fun m n hn => h7 m n (le_trans ?_ hn)⟩
  rw [h2, show k * p.bs * (k * p.cs) = k ^ 2 * p.bs * p.cs by ring] at h3
  linarith

/-! ### Examples -/

/-- Interior points of the example of C97: `y = 0`, with the dual matrices `(49/9)` and `(1)`. -/
theorem exInterval_strict (w w' : Lmi.Ws 1 ℝ) :
    Strict (Whole.startEs (exInterval w w')) 1 (fun _ => 40 / 9) 1 (fun _ => 0)
      (fun i => ⟨fun _ => ⟨0, fun _ => 0⟩, fun _ => if i = 0 then (49 / 9 : ℝ) • 1 else 1, fun _ _ _ => 0⟩) (fun _ => 0) ∧
    (∀ i < 2, DualAbove 1 (nth (Whole.startEs (exInterval w w')) i).item
      ⟨fun _ => ⟨0, fun _ => 0⟩, fun _ => if i = 0 then (49 / 9 : ℝ) • 1 else 1, fun _ _ _ => 0⟩) ∧
    ∀ i < 2, SlackAbove 1 (nth (Whole.startEs (exInterval w w')) i).item
      (nth (Whole.startEs (exInterval w w')) i).vars.length 1 (fun _ => 0) := by
  have hes : Whole.startEs (exInterval w w') = [⟨[0], .lmi 1 ⟨1, fun _ => !![1], 1⟩ (Lmi.setIdentity w)⟩,
      ⟨[0], .lmi 1 ⟨1, fun _ => !![-1], 1⟩ (Lmi.setIdentity w')⟩] := rfl
  have hsl : ∀ A : Nat → Matrix (Fin 1) (Fin 1) ℝ, Lmi.Spec.slack (⟨1, A, 1⟩ : Lmi.Con 1 ℝ) 1 (fun _ => 0) = 1 := fun A => by
    simp [Lmi.Spec.slack]
  have hun : ∀ e : Entry ℝ, unknowns e (fun _ => 0) = fun _ => (0 : ℝ) := fun _ => rfl
  have hone : (1 : Matrix (Fin 1) (Fin 1) ℝ).PosDef := Matrix.PosDef.one
  have hpos : ((49 / 9 : ℝ) • (1 : Matrix (Fin 1) (Fin 1) ℝ)).PosDef := hone.smul (by norm_num)
  rw [hes]
  refine ⟨⟨fun e he => ?_, fun i hi => ?_, fun u hu => ?_⟩, fun i hi => ?_, fun i hi => ?_⟩
  · simp only [List.mem_cons, List.not_mem_nil, or_false] at he
    rcases he with rfl | rfl
    · change (Lmi.Spec.slack _ 1 (fun _ => 0)).PosDef
      rw [hsl]
      exact hone
    · change (Lmi.Spec.slack _ 1 (fun _ => 0)).PosDef
      rw [hsl]
      exact hone
  · have hi' : i = 0 ∨ i = 1 := by
      have : i < 2 := hi
      omega
    rcases hi' with rfl | rfl
    · exact hpos
    · exact hone
  · have hu0 : u = 0 := by omega
    subst hu0
    change ∑ i ∈ range 2, _ = _
    rw [sum_range_succ, sum_range_one]
    simp [Whole.Spec.nth, Sup.Spec.ventry, Spec.pull, Centering.Spec.gradient]
    norm_num
  · have hi' : i = 0 ∨ i = 1 := by omega
    rcases hi' with rfl | rfl
    · change (((49 / 9 : ℝ) • (1 : Matrix (Fin 1) (Fin 1) ℝ)) - (1 : ℝ) • (1 : Matrix (Fin 1) (Fin 1) ℝ)).PosSemidef
      rw [← sub_smul]
      exact hone.posSemidef.smul (by norm_num)
    · change ((1 : Matrix (Fin 1) (Fin 1) ℝ) - (1 : ℝ) • (1 : Matrix (Fin 1) (Fin 1) ℝ)).PosSemidef
      rw [one_smul, sub_self]
      exact Matrix.PosSemidef.zero
  · have hz : ∀ A : Nat → Matrix (Fin 1) (Fin 1) ℝ, (Lmi.Spec.slack (⟨1, A, 1⟩ : Lmi.Con 1 ℝ) 1 (fun _ => 0) -
        (1 : ℝ) • (1 : Matrix (Fin 1) (Fin 1) ℝ)⁻¹).PosSemidef := fun A => by
      rw [hsl, inv_one, one_smul, sub_self]
      exact Matrix.PosSemidef.zero
    have hi' : i = 0 ∨ i = 1 := by omega
    rcases hi' with rfl | rfl
    · exact hz _
    · exact hz _

/-- The hypotheses of `C98_iterations`, for which the number is `40 (2 (2 + 58/9) - 4) + 1 + m`. -/
example (w w' : Lmi.Ws 1 ℝ) (mat : Sup.Store ℝ) : ∃ (v : Env ℝ) (p : Iteration.Setup ℝ) (x₀ : Iteration.State ℝ) (y : Nat → ℝ)
    (P : Nat → Point) (w₀ : Nat → ℝ),
    Lmi.Spec.TriEigenvalues v.tri ∧ (∀ n, MatrixExp.Spec.Solves (v.solve n)) ∧ 0 < p.bs ∧ 0 < p.cs ∧
      Ready p [[], []] x₀ ∧ SameUpdate x₀.es ∧
      (∀ (X : Nat → Iteration.State ℝ) (ST : Nat → Iteration.Step ℝ) (n : Nat), X 0 = x₀ →
        (∀ l ≤ n, Iteration.iterate v p 1 (X l) = .ok (some (ST l, X (l + 1)))) → 2 < (ST n).normsqrd →
        ∀ e ∈ (X n).es, Short (1 * p.cs) (SolveLoop.stepSize (ST n).norm) (unknowns e (ST n).y) e.item) ∧
      Strict x₀.es p.N p.b 1 y P w₀ ∧ (∀ i < x₀.es.length, DualAbove 1 (nth x₀.es i).item (P i)) ∧
      ∀ i < x₀.es.length, SlackAbove 1 (nth x₀.es i).item (nth x₀.es i).vars.length 1 (unknowns (nth x₀.es i) y) := by
  obtain ⟨tri, ht⟩ := exists_tri
  obtain ⟨-, kkt, -, hr⟩ := start_ready (l := ⟨false, 1, Sup.realLlt, fun _ _ b => b, mat⟩) (exInterval_good w w')
    Sup.realLlt_contract Sup.realLlt_complete rfl
  obtain ⟨h1, h2, h3⟩ := exInterval_strict w w'
  have hb : (exInterval w w').b 0 = 40 / 9 := by norm_num [Whole.Program.b, exInterval]
  refine ⟨{ Gap.exEnv with tri := tri }, _, _, fun _ => 0, fun i => ⟨fun _ => ⟨0, fun _ => 0⟩, fun _ =>
    if i = 0 then (49 / 9 : ℝ) • 1 else 1, fun _ _ _ => 0⟩, fun _ => 0, ht, Iteration.ex_solves, one_pos, one_pos, hr, ?_, ?_,
    ⟨h1.primal, h1.dual, fun u hu => ?_⟩, h2, h3⟩
  · refine Or.inl fun e he d m hd o w₁ h => ?_
    have he : e = ⟨[0], .lmi 1 ⟨1, fun _ => !![1], 1⟩ (Lmi.setIdentity w)⟩ ∨
        e = ⟨[0], .lmi 1 ⟨1, fun _ => !![-1], 1⟩ (Lmi.setIdentity w')⟩ := by
      simpa [Whole.startEs, Whole.identity, exInterval, Whole.setIdentity] using he
    rcases he with rfl | rfl <;> cases h
  · intro X ST n h0 hX _
    have hone : ∀ l ≤ n, ∀ e ∈ (X l).es, OrderOne e.item := by
      intro l
      induction l with
      | zero =>
        intro _ e he
        rw [h0] at he
        have he : e = ⟨[0], .lmi 1 ⟨1, fun _ => !![1], 1⟩ (Lmi.setIdentity w)⟩ ∨
            e = ⟨[0], .lmi 1 ⟨1, fun _ => !![-1], 1⟩ (Lmi.setIdentity w')⟩ := by
          simpa [Whole.startEs, Whole.identity, exInterval, Whole.setIdentity] using he
        rcases he with rfl | rfl <;> rfl
      | succ l ih => exact fun hl => order_one_next (hX l (by omega)) (ih (by omega))
    obtain ⟨-, -, -, -, es', -, -, -, -, -, -, -, h10, -⟩ := Iteration.iterate_ok (hX n le_rfl)
    exact order_one_short (hone n le_rfl) h10
  · have hu0 : u = 0 := by
      have : u < 1 := hu
      omega
    subst hu0
    exact (h1.equations 0 one_pos).trans hb.symm

end Verif.MatrixCentering
