import Verif.Lemmas.Centering

/-!
# Lemmas for C89 and C93: the quadratic costs of a program
-/

namespace Verif.Centering

open Finset Verif.Dual Iteration.Spec Whole.Spec Spec
open Whole (nth_get nth_mem nth_of forall₂_nth ventry_congr)

/-- The entries of a quadratic cost. -/
def qmat : Item ℝ → Nat → Nat → ℝ
  | .cost _ Q => Q
  | _ => fun _ _ => 0

theorem ventry_mul (L : List Nat) (f : Nat → ℝ) (a : ℝ) (u : Nat) :
    Sup.Spec.ventry L f u * a = Sup.Spec.ventry L (fun j => f j * a) u := by
  unfold Sup.Spec.ventry
  split_ifs
  · rfl
  · ring

theorem ventry_sum {ι : Type} (L : List Nat) (s : Finset ι) (f : ι → Nat → ℝ) (u : Nat) :
    ∑ a ∈ s, Sup.Spec.ventry L (f a) u = Sup.Spec.ventry L (fun j => ∑ a ∈ s, f a j) u := by
  unfold Sup.Spec.ventry
  split_ifs
  · rfl
  · simp

/-- What is needed of constraints: those that are not quadratic costs have no gradient. -/
structure Costs (es : List (Entry ℝ)) (N : Nat) : Prop where
  vars : ∀ e ∈ es, e.vars.Nodup ∧ ∀ v ∈ e.vars, v < N
  kind : ∀ i < es.length, (gradient · (nth es i).item) = (fun _ _ => 0) ∧ qmat (nth es i).item = (fun _ _ => 0) ∨
    ∃ n Q, (nth es i).item = .cost n Q ∧ n = (nth es i).vars.length ∧ QuadCone.Spec.Psd n Q

theorem Shape.costs {es : List (Entry ℝ)} {N : Nat} (hs : Shape es N) : Costs es N :=
  ⟨hs.vars, fun i hi => (hs.kind i hi).imp (fun ⟨o, w, ho, _⟩ => by rw [ho]; exact ⟨rfl, rfl⟩) id⟩

namespace Costs

theorem none {es : List (Entry ℝ)} {i : Nat} (h : (gradient · (nth es i).item) = fun _ _ => 0) (y : Nat → ℝ) (j : Nat) :
    gradient y (nth es i).item j = 0 := congrFun (congrFun h y) j

/-- The gradients, with one matrix. -/
theorem gradients_eq {es : List (Entry ℝ)} {N : Nat} (hs : Costs es N) (y : Nat → ℝ) (u : Nat) :
    gradients es y u = ∑ v ∈ range N, (∑ i ∈ range es.length, Sup.Spec.ventry (nth es i).vars
      (fun j => Sup.Spec.ventry (nth es i).vars (qmat (nth es i).item j) v) u) * y v := by
  unfold gradients
  simp only [sum_mul]
  rw [sum_comm]
  refine sum_congr rfl fun i hi => ?_
  have hi := mem_range.1 hi
  obtain ⟨h1, h2⟩ := hs.vars _ (nth_mem hi)
  simp only [ventry_mul]
  rw [ventry_sum]
  refine ventry_congr (fun j hj => ?_) u
  have := Gap.sum_ventry h1 h2 y (qmat (nth es i).item j)
  rw [sum_congr rfl fun u _ => by rw [← ventry_mul, mul_comm], this]
  rcases hs.kind i hi with ⟨hg, hq⟩ | ⟨n, Q, ho, hn, -⟩
  · simp [none hg, hq]
  · rw [ho, ← hn]
    exact sum_congr rfl fun l _ => mul_comm _ _

/-- The quadratic forms of the costs. -/
theorem curvature_eq {es : List (Entry ℝ)} {N : Nat} (hs : Costs es N) (y : Nat → ℝ) :
    curvature es N y = ∑ i ∈ range es.length, ∑ j ∈ range (nth es i).vars.length, y ((nth es i).vars.getD j 0) *
      gradient (fun j => y ((nth es i).vars.getD j 0)) (nth es i).item j := by
  unfold curvature gradients
  simp only [mul_sum]
  rw [sum_comm]
  refine sum_congr rfl fun i hi => ?_
  obtain ⟨h1, h2⟩ := hs.vars _ (nth_mem (mem_range.1 hi))
  exact Gap.sum_ventry h1 h2 y _

theorem form_nonneg {es : List (Entry ℝ)} {N : Nat} (hs : Costs es N) (y : Nat → ℝ) {i : Nat} (hi : i < es.length) :
    0 ≤ ∑ j ∈ range (nth es i).vars.length, y ((nth es i).vars.getD j 0) *
      gradient (fun j => y ((nth es i).vars.getD j 0)) (nth es i).item j := by
  rcases hs.kind i hi with ⟨hg, -⟩ | ⟨n, Q, ho, hn, hQ⟩
  · simp [none hg]
  · rw [ho, ← hn]
    exact hQ.2 fun j => y ((nth es i).vars.getD j 0)

theorem curvature_nonneg {es : List (Entry ℝ)} {N : Nat} (hs : Costs es N) (y : Nat → ℝ) : 0 ≤ curvature es N y := by
  rw [curvature_eq hs]
  exact sum_nonneg fun i hi => form_nonneg hs y (mem_range.1 hi)

theorem gradients_mul {es : List (Entry ℝ)} {N : Nat} (hs : Costs es N) (a : ℝ) (y : Nat → ℝ) (u : Nat) :
    gradients es (fun v => a * y v) u = a * gradients es y u := by
  rw [gradients_eq hs, gradients_eq hs, mul_sum]
  exact sum_congr rfl fun v _ => by ring

theorem gradients_add {es : List (Entry ℝ)} {N : Nat} (hs : Costs es N) (y z : Nat → ℝ) (u : Nat) :
    gradients es (fun v => y v + z v) u = gradients es y u + gradients es z u := by
  rw [gradients_eq hs, gradients_eq hs, gradients_eq hs, ← sum_add_distrib]
  exact sum_congr rfl fun v _ => by ring

theorem gradients_sub {es : List (Entry ℝ)} {N : Nat} (hs : Costs es N) (y z : Nat → ℝ) (u : Nat) :
    gradients es (fun v => y v - z v) u = gradients es y u - gradients es z u := by
  rw [gradients_eq hs, gradients_eq hs, gradients_eq hs, ← sum_sub_distrib]
  exact sum_congr rfl fun v _ => by ring

theorem gradients_symm {es : List (Entry ℝ)} {N : Nat} (hs : Costs es N) (y z : Nat → ℝ) :
    ∑ u ∈ range N, y u * gradients es z u = ∑ u ∈ range N, z u * gradients es y u := by
  unfold gradients
  simp only [mul_sum]
  rw [sum_comm, sum_comm (s := range N)]
  refine sum_congr rfl fun i hi => ?_
  have hi := mem_range.1 hi
  obtain ⟨h1, h2⟩ := hs.vars _ (nth_mem hi)
  rw [Gap.sum_ventry h1 h2, Gap.sum_ventry h1 h2]
  rcases hs.kind i hi with ⟨hg, -⟩ | ⟨n, Q, ho, hn, hQ⟩
  · simp [none hg]
  · rw [ho, ← hn]
    simp only [gradient, mul_sum]
    rw [sum_comm]
    refine sum_congr rfl fun j hj => sum_congr rfl fun l hl => ?_
    rw [hQ.1 l (mem_range.1 hl) j (mem_range.1 hj)]
    ring

/-- `p' Q q >= -(p - q)' Q (p - q) / 4`. -/
theorem cross_ge {es : List (Entry ℝ)} {N : Nat} (hs : Costs es N) (p q : Nat → ℝ) :
    -(curvature es N (fun u => p u - q u) / 4) ≤ ∑ u ∈ range N, p u * gradients es q u := by
  have h1 := curvature_nonneg hs fun u => p u + q u
  have h2 := gradients_symm hs p q
  have h3 : curvature es N (fun u => p u + q u) - curvature es N (fun u => p u - q u) =
      2 * ∑ u ∈ range N, p u * gradients es q u + 2 * ∑ u ∈ range N, q u * gradients es p u := by
    unfold curvature
    simp only [mul_sum, gradients_add hs, gradients_sub hs]
    rw [← sum_sub_distrib, ← sum_add_distrib]
    exact sum_congr rfl fun u _ => by ring
  linarith

end Costs

end Verif.Centering
