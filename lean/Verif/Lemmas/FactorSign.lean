import Verif.Model.FactorSign
import Verif.Spec.FactorSign
import Verif.Lemmas.RankUpdate

/-!
# Lemmas about the sign of a factorization
-/

namespace Verif.Dense

open Finset

variable {R : Type} [Field R] [LinearOrder R]

/-- A pass does not touch the pivots of earlier passes. -/
theorem ldltStep_diag {size k l : Nat} (hk : k < size) (hl : l < k) (s : Ldlt R) :
    (ldltStep size k s).mat l l = s.mat l l := by
  obtain ⟨hp1, hp2⟩ := pivotIndex_range size k hk s.mat
  obtain ⟨q1, _⟩ := pivotSwap_spec size k (pivotIndex size k s.mat) hp1 hp2 s.mat
  have : (ldltStep size k s).mat l l = pivotSwap size k (pivotIndex size k s.mat) s.mat l l := by
    simp [ldltStep, eliminateCol, show l ≠ k by omega]
  rw [this, q1 l l hl, Equiv.swap_apply_of_ne_of_ne (by omega) (by omega)]

/-- The pivot of pass `l` in the final matrix. -/
theorem ldltLoop_diag {size : Nat} (m : Nat → Nat → R) (l : Nat) :
    ∀ k, l < k → k ≤ size → (ldltLoop size m k).mat l l = (ldltLoop size m (l + 1)).mat l l
  | 0, h, _ => by omega
  | k + 1, h, hk => by
    by_cases hl : l = k
    · subst hl; rfl
    · rw [← ldltLoop_diag m l k (by omega) (by omega)]
      exact ldltStep_diag (by omega) (by omega) _

/-- The sign after `k ≥ 1` passes over non-zero pivots. -/
theorem signLoop_spec {size : Nat} (m : Nat → Nat → R) :
    ∀ k, (∀ l, l < k + 1 → (ldltLoop size m (l + 1)).mat l l ≠ 0) →
      (signLoop size m (k + 1) = .positiveSemiDef ↔
        ∀ l, l < k + 1 → 0 < (ldltLoop size m (l + 1)).mat l l) ∧
      (signLoop size m (k + 1) = .negativeSemiDef ↔
        ∀ l, l < k + 1 → (ldltLoop size m (l + 1)).mat l l < 0) ∧
      signLoop size m (k + 1) ≠ .zeroSign
  | 0, h => by
    have h0 := h 0 (by omega)
    have hall : ∀ P : Nat → Prop, (∀ l, l < 0 + 1 → P l) ↔ P 0 := fun P =>
      ⟨fun h => h 0 (by omega), fun h l hl => by
        obtain rfl : l = 0 := by omega
        exact h⟩
    rw [hall, hall]
    simp only [signLoop, signStep]
    rcases lt_or_gt_of_ne h0 with h1 | h1
    · simp [h1, not_lt.2 h1.le]
    · simp [h1, not_lt.2 h1.le]
  | k + 1, h => by
    obtain ⟨i1, i2, i3⟩ := signLoop_spec m k (fun l hl => h l (by omega))
    have hk := h (k + 1) (by omega)
    have hall : ∀ P : Nat → Prop, (∀ l, l < k + 1 + 1 → P l) ↔ (∀ l, l < k + 1 → P l) ∧ P (k + 1) :=
      fun P => ⟨fun h => ⟨fun l hl => h l (by omega), h _ (by omega)⟩, fun h l hl => by
        by_cases e : l = k + 1
        · subst e; exact h.2
        · exact h.1 l (by omega)⟩
    rw [hall, hall, ← i1, ← i2]
    rw [show signLoop size m (k + 1 + 1) = signStep (signLoop size m (k + 1))
      ((ldltLoop size m (k + 1 + 1)).mat (k + 1) (k + 1)) from rfl]
    cases hs : signLoop size m (k + 1) with
    | zeroSign => exact absurd hs i3
    | indefinite => simp [signStep]
    | positiveSemiDef =>
      rcases lt_or_gt_of_ne hk with h1 | h1
      · simp [signStep, h1, not_lt.2 h1.le]
      · simp [signStep, h1, not_lt.2 h1.le]
    | negativeSemiDef =>
      rcases lt_or_gt_of_ne hk with h1 | h1
      · simp [signStep, h1, not_lt.2 h1.le]
      · simp [signStep, h1, not_lt.2 h1.le]

/-- The recorded sign and the pivots of the result. -/
theorem compute_sign [IsStrictOrderedRing R] {size : Nat} {A : Nat → Nat → R} {s : Ldlt R}
    (h : ldlt size A = .ok s) :
    ∃ f, compute size A = .ok f ∧ f.mat = s.mat ∧ f.tr = s.tr ∧
      (f.isPositive = true ↔ ∀ l, l < size → 0 < s.mat l l) ∧
      (f.isNegative = true ↔ ∀ l, l < size → s.mat l l < 0) := by
  obtain ⟨hn, _, _, hd, _⟩ := ldlt_spec h
  unfold compute
  rw [h]
  refine ⟨_, rfl, rfl, rfl, ?_⟩
  match size, h, hn, hd with
  | 1, h, _, hd =>
    have h0 := hd 0 (by omega)
    have hall : ∀ P : Nat → Prop, (∀ l, l < 1 → P l) ↔ P 0 := fun P =>
      ⟨fun h => h 0 (by omega), fun h l hl => by
        obtain rfl : l = 0 := by omega
        exact h⟩
    rw [hall, hall]
    simp only [Factor.isPositive, Factor.isNegative, signStep]
    rcases lt_or_gt_of_ne h0 with h1 | h1
    · simp [h1, not_lt.2 h1.le]
    · simp [h1, not_lt.2 h1.le]
  | n + 2, h, _, hd =>
    simp only [ldlt, Outcome.ok.injEq] at h
    subst h
    have he : ∀ l, l < n + 2 → (ldltLoop (n + 2) A (n + 2)).mat l l =
        (ldltLoop (n + 2) A (l + 1)).mat l l := fun l hl => ldltLoop_diag A l (n + 2) hl le_rfl
    obtain ⟨i1, i2, i3⟩ := signLoop_spec (size := n + 2) A (n + 1)
      (fun l hl => by rw [← he l hl]; exact hd l hl)
    simp only [Factor.isPositive, Factor.isNegative, Bool.or_eq_true, decide_eq_true_eq, i3,
      or_false, i1, i2]
    constructor
    · exact forall_congr' fun l => forall_congr' fun hl => by rw [he l hl]
    · exact forall_congr' fun l => forall_congr' fun hl => by rw [he l hl]

/-- The quadratic form in terms of the factorization. -/
theorem form_eq [IsStrictOrderedRing R] {size : Nat} {A : Nat → Nat → R} {s : Ldlt R}
    (h : ldlt size A = .ok s) (hr : s.reg = false) (x : Nat → R) :
    Spec.form size A (fun i => x ((permOf s.tr).symm i)) =
      ∑ l ∈ range size, s.mat l l * ((∑ i ∈ range size, unitLower s.mat i l * x i) *
        ∑ i ∈ range size, unitLower s.mat i l * x i) := by
  obtain ⟨_, hp, _, _, hF, _⟩ := ldlt_spec h
  have hsym : ∀ i, i < size → ∀ j, j < size →
      ∑ l ∈ range size, unitLower s.mat i l * s.mat l l * unitLower s.mat j l =
        symm A (permOf s.tr i) (permOf s.tr j) := by
    intro i hi j hj
    rcases Nat.le_total j i with h1 | h1
    · exact hF hr i j h1 hi
    · rw [symm_comm, ← hF hr j i h1 hj]
      exact sum_congr rfl fun l _ => by ring
  unfold Spec.form
  rw [← sum_permute (permOf s.tr) hp,
    sum_congr rfl fun i _ => (sum_permute (permOf s.tr) hp _).symm]
  simp only [Equiv.symm_apply_apply]
  have h1 : ∀ i ∈ range size, ∀ j ∈ range size,
      x i * A (max (permOf s.tr i) (permOf s.tr j)) (min (permOf s.tr i) (permOf s.tr j)) * x j =
      ∑ l ∈ range size, s.mat l l * ((unitLower s.mat i l * x i) * (unitLower s.mat j l * x j)) := by
    intro i hi j hj
    have := hsym i (mem_range.1 hi) j (mem_range.1 hj)
    unfold symm at this
    rw [← this, mul_sum, sum_mul]
    exact sum_congr rfl fun l _ => by ring
  rw [sum_congr rfl fun i hi => sum_congr rfl (h1 i hi)]
  rw [sum_congr rfl fun i _ => sum_comm, sum_comm]
  refine sum_congr rfl fun l _ => ?_
  rw [sum_mul_sum]
  simp only [mul_sum]

/-- Every pivot is a value of the quadratic form. -/
theorem form_pivot [IsStrictOrderedRing R] {size : Nat} {A : Nat → Nat → R} {s : Ldlt R}
    (h : ldlt size A = .ok s) (hr : s.reg = false) {k : Nat} (hk : k < size) :
    ∃ x, Spec.form size A x = s.mat k k := by
  obtain ⟨x, hx1, hx0, hx⟩ := exists_probe s.mat k
  refine ⟨fun i => x ((permOf s.tr).symm i), ?_⟩
  rw [form_eq h hr]
  have he : ∀ i l, unitLower s.mat i l = Spec.unit s.mat i l := by
    intro i l
    unfold unitLower Spec.unit
    by_cases h1 : l < i
    · simp [h1, show i ≠ l by omega]
    · simp [h1]
  have hu : ∀ l, ∑ i ∈ range size, unitLower s.mat i l * x i = if l = k then 1 else 0 := by
    intro l
    simp only [he]
    rcases lt_trichotomy l k with h | rfl | h
    · rw [if_neg (by omega), ← hx l h]
      symm
      apply sum_subset (range_subset_range.2 (by omega))
      intro i _ h2
      rw [mem_range] at h2
      rw [hx0 i (by omega), mul_zero]
    · rw [if_pos rfl, sum_eq_single l]
      · simp [Spec.unit, hx1]
      · intro i _ hi
        rcases Nat.lt_or_gt_of_ne hi with h | h
        · simp [Spec.unit, hi, show ¬ l < i by omega]
        · rw [hx0 i h, mul_zero]
      · intro h
        exact absurd (mem_range.2 hk) h
    · rw [if_neg (by omega)]
      apply sum_eq_zero
      intro i _
      by_cases hi : k < i
      · rw [hx0 i hi, mul_zero]
      · simp [Spec.unit, show i ≠ l by omega, show ¬ l < i by omega]
  simp only [hu]
  rw [sum_eq_single k]
  · simp
  · intro l _ hl
    simp [hl]
  · intro h
    exact absurd (mem_range.2 hk) h

end Verif.Dense
