import Verif.Lemmas.Preprocess
import Mathlib.Analysis.SpecialFunctions.Sqrt
import Mathlib.Algebra.Order.Ring.Rat
import Mathlib.Tactic.NormNum

/-!
# Properties of the translation of two-sided linear inequalities (C34)
-/

namespace Verif.Preprocess

open Finset Spec

variable {R : Type} [Field R] [LinearOrder R] [IsStrictOrderedRing R]

/-- The translation does not throw, and a point satisfies the resulting inequalities and equations
exactly when it satisfied those present before and lies within the bounds of every row. -/
theorem C34_faithful {sqrt : R → R} (hs : ∀ x, 0 ≤ x → SqrtAt sqrt x) {m : Nat}
    (l : List ((Nat → R) × R × R)) (hz : ∀ r ∈ l, NonZero m r) (s : Mat R × Mat R)
    (h1 : Fits s.1 m) (h2 : Fits s.2 m) :
    ∃ t, preprocess sqrt m l s = .ok t ∧ ∀ x, (FeasibleIneq t.1 x ∧ FeasibleEq t.2 x) ↔
      (FeasibleIneq s.1 x ∧ FeasibleEq s.2 x ∧ ∀ r ∈ l, Within m r x) := by
  induction l generalizing s with
  | nil => exact ⟨s, rfl, fun x => by simp⟩
  | cons r l ih =>
    obtain ⟨a, lb, ub⟩ := r
    obtain ⟨t, e, f1, f2, hx⟩ := processRow_spec hs (hz _ List.mem_cons_self) h1 h2
    obtain ⟨u, e', hu⟩ := ih (fun r hr => hz r (List.mem_cons_of_mem _ hr)) t f1 f2
    refine ⟨u, by simp only [preprocess, e, Outcome.bind_ok, e'], fun x => ?_⟩
    rw [hu, List.forall_mem_cons, ← and_assoc, hx]
    tauto

/-- The same from empty matrices, as the C interface calls it, for bounds smaller than `1e8`: exactly
the points with `lb ≤ A x ≤ ub` remain. -/
theorem C34_faithful_finite {sqrt : R → R} (hs : ∀ x, 0 ≤ x → SqrtAt sqrt x) {m : Nat}
    (l : List ((Nat → R) × R × R)) (hz : ∀ r ∈ l, NonZero m r)
    (hb : ∀ r ∈ l, -100000000 < r.2.1 ∧ r.2.2 < 100000000) (c d : Nat) :
    ∃ t, preprocess sqrt m l (⟨c, []⟩, ⟨d, []⟩) = .ok t ∧
      ∀ x, (FeasibleIneq t.1 x ∧ FeasibleEq t.2 x) ↔
        ∀ r ∈ l, r.2.1 ≤ dot m r.1 x ∧ dot m r.1 x ≤ r.2.2 := by
  obtain ⟨t, e, h⟩ := C34_faithful hs l hz (⟨c, []⟩, ⟨d, []⟩) (.inl rfl) (.inl rfl)
  refine ⟨t, e, fun x => ?_⟩
  rw [h]
  simp only [FeasibleIneq, FeasibleEq, List.not_mem_nil, false_imp_iff, implies_true, true_and]
  refine forall₂_congr fun r hr => ?_
  obtain ⟨b1, b2⟩ := hb r hr
  unfold Within
  rw [or_iff_left (fun h => absurd h.2 (not_le.2 b1)),
    or_iff_left (fun h => absurd h.2 (not_le.2 b2))]

/-- The hypotheses hold for the rows `-1 ≤ x₀ + 2 x₁ ≤ 3` and `x₁ = 0` with the real square root. -/
example : (∀ x, 0 ≤ x → SqrtAt Real.sqrt x) ∧
    ∀ r ∈ [((fun j => if j = 0 then (1 : ℝ) else 2), (-1 : ℝ), (3 : ℝ)),
      ((fun j => if j = 0 then (0 : ℝ) else 1), (0 : ℝ), (0 : ℝ))], NonZero 2 r := by
  refine ⟨fun x hx => ⟨Real.sqrt_nonneg x, Real.mul_self_sqrt hx⟩, ?_⟩
  simp only [List.mem_cons, List.not_mem_nil, or_false, forall_eq_or_imp, forall_eq]
  exact ⟨.inl ⟨0, by norm_num, by norm_num⟩, .inl ⟨1, by norm_num, by norm_num⟩⟩

/-- The assumption on zero rows is needed: the row `0 ≤ 0 x ≤ 1` holds for every `x`, but its lower
half is divided by zero. -/
theorem C34_zero_row_violated :
    ∃ sqrt : ℚ → ℚ, SqrtAt sqrt 0 ∧ SqrtAt sqrt 1 ∧
      (∀ x, Within 1 (fun _ => (0 : ℚ), 0, 1) x) ∧
      ∃ t, preprocess sqrt 1 [(fun _ => (0 : ℚ), 0, 1)] (⟨0, []⟩, ⟨0, []⟩) = .ok t ∧
        none ∈ t.1.rows ∧ ∀ x, ¬ FeasibleIneq t.1 x := by
  refine ⟨fun x => x, by unfold SqrtAt; norm_num, by unfold SqrtAt; norm_num, ?_, ?_⟩
  · intro x
    simp [Within, dot]
  · have e : preprocess (fun x : ℚ => x) 1 [(fun _ => (0 : ℚ), 0, 1)] (⟨0, []⟩, ⟨0, []⟩) =
        .ok (⟨1, [scaled (fun x => x) 1 1 (fun _ => (0 : ℚ)) 1, none]⟩, ⟨0, []⟩) := by
      have e0 : scaled (fun x => x) 1 (-1) (fun _ => (0 : ℚ)) 0 = none := by simp [scaled]
      simp only [preprocess, processRow, huge]
      norm_num [appendRow, e0]
    refine ⟨_, e, by simp, fun x h => ?_⟩
    obtain ⟨a, b, h, -⟩ := h none (by simp)
    simp at h

end Verif.Preprocess
