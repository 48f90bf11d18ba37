import Mathlib.Tactic.Ring
import Mathlib.Tactic.FieldSimp
import Mathlib.Tactic.LinearCombination
import Mathlib.Tactic.Positivity
import Mathlib.Algebra.BigOperators.Group.List.Basic
import Verif.Model.RankUpdate
import Verif.Spec.RankUpdate
import Verif.Spec.ColumnFactor
import Verif.Lemmas.DenseFactor

/-!
# Lemmas about the rank one update
-/

namespace Verif.Dense

open Finset

variable {R : Type} [Field R] [LinearOrder R]

/-- The matrix after one pass with finite factors. -/
def stepMat (size k : Nat) (sigma alpha : R) (m : Nat → Nat → R) (w : Nat → R) : Nat → Nat → R :=
  rankMat size k (sigma * (w k * w k) / alpha)
    (sigma * w k / (m k k * alpha + sigma * (w k * w k))) m w

/-- One pass with `alpha` not zero. -/
theorem rankLoop_cons (size : Nat) (sigma : R) (k : Nat) (js : List Nat) (m : Nat → Nat → R)
    (w : Nat → R) {alpha : R} (ha : alpha ≠ 0) :
    rankLoop size sigma (k :: js) m w (some alpha) =
      rankLoop size sigma js (stepMat size k sigma alpha m w) (rankVec size k m w)
        (if m k k = 0 then none else some (alpha + sigma * (w k * w k) / m k k)) := by
  rw [rankLoop]
  have e1 : quot (sigma * (w k * w k)) alpha = some (sigma * (w k * w k) / alpha) := if_neg ha
  have e2 : rankFactor sigma (w k) (m k k * alpha + sigma * (w k * w k)) =
      some (sigma * w k / (m k k * alpha + sigma * (w k * w k))) := by
    unfold rankFactor quot
    by_cases h : m k k * alpha + sigma * (w k * w k) = 0
    · simp [h]
    · simp [h]
  have e3 : rankAlpha k sigma alpha m w =
      if m k k = 0 then none else some (alpha + sigma * (w k * w k) / m k k) := by
    unfold rankAlpha quot
    split_ifs <;> rfl
  simp only [e1, e2, e3]
  rfl

/-- One pass with `alpha` zero. -/
theorem rankLoop_stop (size : Nat) (sigma : R) (k : Nat) (js : List Nat) (m : Nat → Nat → R)
    (w : Nat → R) {alpha : R} (ha : alpha = 0) :
    rankLoop size sigma (k :: js) m w (some alpha) = none := by
  rw [rankLoop]
  have e1 : quot (sigma * (w k * w k)) alpha = none := if_pos ha
  simp only [e1]

/-- The part of the vector that is still to be worked off. -/
def rest (k : Nat) (w : Nat → R) (i : Nat) : R := if i < k then 0 else w i

/-- Invariant of the loop before pass `k`: the columns already updated, the columns not yet touched,
and a rank one matrix of the remaining vector add up to the target. -/
def RankInv (size k : Nat) (sigma alpha : R) (m : Nat → Nat → R) (w : Nat → R)
    (T : Nat → Nat → R) : Prop :=
  ∀ i j, i < size → j < size →
    ∑ l ∈ range size, Spec.unit m i l * m l l * Spec.unit m j l +
      sigma / alpha * rest k w i * rest k w j = T i j

theorem sum_change {n k : Nat} (hk : k < n) (f g : Nat → R) (h : ∀ l, l ≠ k → f l = g l) :
    ∑ l ∈ range n, f l = ∑ l ∈ range n, g l + (f k - g k) := by
  have hm : k ∈ range n := mem_range.2 hk
  rw [← add_sum_erase _ f hm, ← add_sum_erase _ g hm,
    sum_congr rfl (fun l hl => h l (ne_of_mem_erase hl))]
  ring

theorem stepMat_off (size k : Nat) (sigma alpha : R) (m : Nat → Nat → R) (w : Nat → R) (i l : Nat)
    (h : l ≠ k) : stepMat size k sigma alpha m w i l = m i l := by
  simp [stepMat, rankMat, h]

theorem stepMat_diag (size k : Nat) (sigma alpha : R) (m : Nat → Nat → R) (w : Nat → R) :
    stepMat size k sigma alpha m w k k = m k k + sigma * (w k * w k) / alpha := by
  simp [stepMat, rankMat]

/-- The new column. -/
theorem unit_stepMat {size k : Nat} (sigma alpha : R) (m : Nat → Nat → R) (w : Nat → R) (i : Nat)
    (hi : i < size) : Spec.unit (stepMat size k sigma alpha m w) i k = Spec.unit m i k +
      sigma * w k / (m k k * alpha + sigma * (w k * w k)) *
        rest (k + 1) (rankVec size k m w) i := by
  unfold Spec.unit rest
  rcases lt_trichotomy i k with h | rfl | h
  · simp [show i ≠ k by omega, show ¬ k < i by omega, show i < k + 1 by omega]
  · simp
  · have e1 : i ≠ k := by omega
    have e2 : ¬ i < k + 1 := by omega
    simp only [e1, if_false, h, if_true, e2]
    simp [stepMat, rankMat, e1, h, hi]

/-- The vector splits into a multiple of the old column and the new vector. -/
theorem rest_split {size k : Nat} (m : Nat → Nat → R) (w : Nat → R) (i : Nat) (hi : i < size) :
    rest k w i = w k * Spec.unit m i k + rest (k + 1) (rankVec size k m w) i := by
  unfold Spec.unit rest rankVec
  rcases lt_trichotomy i k with h | rfl | h
  · simp [h, show i ≠ k by omega, show ¬ k < i by omega, show i < k + 1 by omega]
  · simp
  · simp [show ¬ i < k by omega, show i ≠ k by omega, h, show ¬ i < k + 1 by omega, hi]

/-- One pass keeps the invariant. -/
theorem rankInv_step {size k : Nat} (hk : k < size) {sigma alpha : R} {m : Nat → Nat → R}
    {w : Nat → R} {T : Nat → Nat → R} (ha : alpha ≠ 0) (hd : m k k ≠ 0)
    (hg : m k k * alpha + sigma * (w k * w k) ≠ 0 ∨ k + 1 = size)
    (H : RankInv size k sigma alpha m w T) :
    RankInv size (k + 1) sigma (alpha + sigma * (w k * w k) / m k k)
      (stepMat size k sigma alpha m w) (rankVec size k m w) T := by
  intro i j hi hj
  rw [← H i j hi hj]
  rw [sum_change hk _ (fun l => Spec.unit m i l * m l l * Spec.unit m j l) (by
    intro l hl
    have hu : ∀ r, Spec.unit (stepMat size k sigma alpha m w) r l = Spec.unit m r l := by
      intro r
      unfold Spec.unit
      rw [stepMat_off _ _ _ _ _ _ _ _ hl]
    rw [hu i, hu j, stepMat_off _ _ _ _ _ _ _ _ hl])]
  rw [unit_stepMat sigma alpha m w i hi, unit_stepMat sigma alpha m w j hj, stepMat_diag,
    rest_split (size := size) m w i hi, rest_split (size := size) m w j hj]
  generalize Spec.unit m i k = li
  generalize Spec.unit m j k = lj
  have hlast : k + 1 = size → ∀ r, r < size → rest (k + 1) (rankVec size k m w) r = 0 := by
    intro h r hr
    simp [rest, show r < k + 1 by omega]
  by_cases h0 : m k k * alpha + sigma * (w k * w k) = 0
  · have hs : k + 1 = size := hg.resolve_left (fun h => h h0)
    rw [hlast hs i hi, hlast hs j hj]
    have e : sigma * (w k * w k) = - (m k k * alpha) := by linear_combination h0
    have e3 : -(m k k * alpha) / alpha = -m k k := by field_simp
    have e2 : sigma / alpha * (w k * li + 0) * (w k * lj + 0) =
        sigma * (w k * w k) / alpha * (li * lj) := by ring
    rw [e2, e, e3]
    ring
  · have e1 : alpha + sigma * (w k * w k) / m k k =
        (m k k * alpha + sigma * (w k * w k)) / m k k := by
      field_simp
    rw [e1]
    generalize rest (k + 1) (rankVec size k m w) i = wi
    generalize rest (k + 1) (rankVec size k m w) j = wj
    generalize hG : m k k * alpha + sigma * (w k * w k) = G at h0 ⊢
    have e2 : m k k + sigma * (w k * w k) / alpha = G / alpha := by
      rw [← hG]; field_simp
    rw [e2]
    generalize m k k = D at *
    generalize w k = v at *
    have hD : D * alpha = G - sigma * (v * v) := by rw [← hG]; ring
    field_simp
    linear_combination (sigma * wi * wj - G * li * lj) * hD

/-- At the end of the loop nothing is left of the vector. -/
theorem rankInv_end {size : Nat} {sigma alpha : R} {m : Nat → Nat → R} {w : Nat → R}
    {T : Nat → Nat → R} (H : RankInv size size sigma alpha m w T) :
    ∀ i j, i < size → j < size →
      ∑ l ∈ range size, Spec.unit m i l * m l l * Spec.unit m j l = T i j := by
  intro i j hi hj
  rw [← H i j hi hj]
  simp [rest, hi]

/-- If all pivots are non-zero and the result is finite, the result is the target. -/
theorem rankLoop_ok {size : Nat} {sigma : R} {T : Nat → Nat → R} {m' : Nat → Nat → R} :
    ∀ (t k : Nat) (m : Nat → Nat → R) (w : Nat → R) (alpha : R), k + t = size →
      (∀ l, k ≤ l → l < size → m l l ≠ 0) → RankInv size k sigma alpha m w T →
      rankLoop size sigma (List.range' k t) m w (some alpha) = some m' →
      ∀ i j, i < size → j < size →
        ∑ l ∈ range size, Spec.unit m' i l * m' l l * Spec.unit m' j l = T i j
  | 0, k, m, w, alpha, hk, _, H, h => by
    simp only [List.range'_zero, rankLoop, Option.some.injEq] at h
    subst h
    obtain rfl : k = size := by omega
    exact rankInv_end H
  | t + 1, k, m, w, alpha, hk, hd, H, h => by
    rw [List.range'_succ] at h
    have ha : alpha ≠ 0 := by
      intro ha
      rw [rankLoop_stop _ _ _ _ _ _ ha] at h
      simp at h
    have hdk := hd k le_rfl (by omega)
    rw [rankLoop_cons _ _ _ _ _ _ ha, if_neg hdk] at h
    refine rankLoop_ok t (k + 1) _ _ _ (by omega) ?_ (rankInv_step (by omega) ha hdk ?_ H) h
    · intro l hl hls
      rw [stepMat_off _ _ _ _ _ _ _ _ (by omega)]
      exact hd l (by omega) hls
    · cases t with
      | zero => exact .inr (by omega)
      | succ t =>
        left
        intro h0
        rw [List.range'_succ] at h
        rw [rankLoop_stop _ _ _ _ _ _ (by
          have : alpha + sigma * (w k * w k) / m k k =
            (m k k * alpha + sigma * (w k * w k)) / m k k := by field_simp
          rw [this, h0, zero_div])] at h
        simp at h

/-- There is a vector that the finished columns do not see and that ends in a one at `k`. -/
theorem exists_probe (m : Nat → Nat → R) (k : Nat) :
    ∃ x : Nat → R, x k = 1 ∧ (∀ i, k < i → x i = 0) ∧
      ∀ l, l < k → ∑ i ∈ range (k + 1), Spec.unit m i l * x i = 0 := by
  have hd : ∀ r, r < k + 1 → Spec.unit m r r ≠ 0 := by
    intro r _
    simp [Spec.unit]
  have hu : ∀ r c, r < k + 1 → r < c → Spec.unit m r c = 0 := by
    intro r c _ h
    simp [Spec.unit, show r ≠ c by omega, show ¬ c < r by omega]
  refine ⟨bsub (Spec.unit m) (k + 1) (fun i => if i = k then 1 else 0), ?_, ?_, ?_⟩
  · have := bsub_spec (Spec.unit m) (k + 1) (fun i => if i = k then 1 else 0) hd k (by omega)
    simpa [Spec.unit] using this
  · intro i hi
    rw [bsub_out _ _ _ _ (by omega)]
    simp [show i ≠ k by omega]
  · intro l hl
    rw [bsub_full (Spec.unit m) (k + 1) _ hd hu l (by omega)]
    simp [show l ≠ k by omega]

/-- A permutation of the first `n` indices does not change a sum over them. -/
theorem sum_permute {n : Nat} (p : Equiv.Perm Nat) (h : ∀ i, i < n → p i < n) (f : Nat → R) :
    ∑ i ∈ range n, f (p i) = ∑ i ∈ range n, f i := by
  have hi : (range n).image p = range n := by
    apply eq_of_subset_of_card_le
    · intro x hx
      obtain ⟨i, hi, rfl⟩ := mem_image.1 hx
      exact mem_range.2 (h i (mem_range.1 hi))
    · rw [card_image_of_injective _ p.injective]
  conv_rhs => rw [← hi]
  rw [sum_image (fun a _ b _ hab => p.injective hab)]

/-- Exchanging every index with itself is the identity. -/
theorem permOf_range (n : Nat) : permOf (List.range n) = 1 := by
  unfold permOf
  apply List.prod_eq_one
  intro x hx
  obtain ⟨⟨a, b⟩, hp, rfl⟩ := List.mem_map.1 hx
  have := List.mem_zipIdx hp
  simp only [List.getElem_range] at this
  obtain ⟨_, _, h⟩ := this
  simp at h
  subst h
  simp
  rfl

/-- The update of the zero matrix. -/
theorem rankLoop_zero {n : Nat} (hn : 0 < n) (sigma : R) (w : Nat → R) :
    rankLoop n sigma (List.range n) (fun _ _ => 0) w (some 1) =
      some (stepMat n 0 sigma 1 (fun _ _ => 0) w) := by
  obtain ⟨p, rfl⟩ : ∃ p, n = p + 1 := ⟨n - 1, by omega⟩
  rw [List.range_eq_range', List.range'_succ]
  rw [rankLoop_cons _ _ _ _ _ _ one_ne_zero, if_pos rfl]
  cases p with
  | zero => rfl
  | succ p => rw [List.range'_succ]; rfl

theorem stepMat_zero {n : Nat} (hn : 0 < n) (sigma : R) (w : Nat → R) (hw : w 0 ≠ 0) (i j : Nat)
    (hi : i < n) (hj : j < n) :
    ∑ l ∈ range n, Spec.unit (stepMat n 0 sigma 1 (fun _ _ => 0) w) i l *
      stepMat n 0 sigma 1 (fun _ _ => 0) w l l *
        Spec.unit (stepMat n 0 sigma 1 (fun _ _ => 0) w) j l = sigma * w i * w j := by
  rw [sum_eq_single 0]
  · have hu : ∀ r, r < n → sigma ≠ 0 →
        Spec.unit (stepMat n 0 sigma 1 (fun _ _ => 0) w) r 0 = w r / w 0 := by
      intro r hr hs
      rw [unit_stepMat _ _ _ _ _ hr]
      by_cases hr0 : r = 0
      · subst hr0
        simp [Spec.unit, rest, hw]
      · simp only [Spec.unit, hr0, rest, rankVec, show 0 < r by omega, hr, if_false, if_true]
        simp only [show ¬ r < 0 + 1 by omega, if_false, and_self, if_true, zero_mul,
          zero_add, mul_zero, sub_zero]
        field_simp
    rw [stepMat_diag]
    by_cases hs : sigma = 0
    · simp [hs]
    · rw [hu i hi hs, hu j hj hs]
      field_simp
      ring
  · intro l _ hl
    rw [stepMat_off _ _ _ _ _ _ _ _ hl]
    simp
  · intro h
    exact absurd (mem_range.2 hn) h

/-- The new pivot is a value of the quadratic form of the target. -/
theorem rankInv_value {size k : Nat} (hk : k < size) {sigma alpha : R} {m : Nat → Nat → R}
    {w : Nat → R} {T : Nat → Nat → R} (H : RankInv size k sigma alpha m w T) :
    ∃ x : Nat → R, x k = 1 ∧ ∑ i ∈ range size, ∑ j ∈ range size, x i * T i j * x j =
      m k k + sigma * (w k * w k) / alpha := by
  obtain ⟨x, hx1, hx0, hx⟩ := exists_probe m k
  refine ⟨x, hx1, ?_⟩
  have hu : ∀ l, ∑ i ∈ range size, Spec.unit m i l * x i = if l = k then 1 else 0 := by
    intro l
    rcases lt_trichotomy l k with h | rfl | h
    · rw [if_neg (by omega), ← hx l h]
      symm
      apply sum_subset (range_subset_range.2 (by omega))
      intro i _ h2
      rw [mem_range] at h2
      rw [hx0 i (by omega), mul_zero]
    · rw [if_pos rfl, sum_eq_single l]
      · simp [Spec.unit, hx1]
      · intro i _ hi
        rcases Nat.lt_or_gt_of_ne hi with h | h
        · simp [Spec.unit, hi, show ¬ l < i by omega]
        · rw [hx0 i h, mul_zero]
      · intro h
        exact absurd (mem_range.2 hk) h
    · rw [if_neg (by omega)]
      apply sum_eq_zero
      intro i _
      by_cases hi : k < i
      · rw [hx0 i hi, mul_zero]
      · simp [Spec.unit, show i ≠ l by omega, show ¬ l < i by omega]
  have hw : ∑ i ∈ range size, rest k w i * x i = w k := by
    rw [sum_eq_single k]
    · simp [rest, hx1]
    · intro i _ hi
      rcases Nat.lt_or_gt_of_ne hi with h | h
      · simp [rest, h]
      · rw [hx0 i h, mul_zero]
    · intro h
      exact absurd (mem_range.2 hk) h
  have key : ∑ i ∈ range size, ∑ j ∈ range size, x i * T i j * x j =
      ∑ l ∈ range size, m l l * ((∑ i ∈ range size, Spec.unit m i l * x i) *
        ∑ j ∈ range size, Spec.unit m j l * x j) +
      sigma / alpha * ((∑ i ∈ range size, rest k w i * x i) *
        ∑ j ∈ range size, rest k w j * x j) := by
    have h1 : ∀ i ∈ range size, ∀ j ∈ range size, x i * T i j * x j =
        ∑ l ∈ range size, m l l * ((Spec.unit m i l * x i) * (Spec.unit m j l * x j)) +
          sigma / alpha * ((rest k w i * x i) * (rest k w j * x j)) := by
      intro i hi j hj
      rw [← H i j (mem_range.1 hi) (mem_range.1 hj), mul_add, add_mul, mul_sum, sum_mul]
      congr 1
      · exact sum_congr rfl fun l _ => by ring
      · ring
    rw [sum_congr rfl fun i hi => sum_congr rfl (h1 i hi)]
    simp only [sum_add_distrib]
    congr 1
    · rw [sum_congr rfl fun i _ => sum_comm, sum_comm]
      refine sum_congr rfl fun l _ => ?_
      rw [sum_mul_sum]
      simp only [mul_sum]
    · rw [sum_mul_sum]
      simp only [mul_sum]
  rw [key]
  simp only [hu, hw, mul_ite, mul_one, mul_zero, sum_ite_eq', mem_range, hk, if_true]
  ring

variable [IsStrictOrderedRing R]

/-- If the target is positive definite the new pivot is positive. -/
theorem rankInv_pivot {size k : Nat} (hk : k < size) {sigma alpha : R} {m : Nat → Nat → R}
    {w : Nat → R} {T : Nat → Nat → R} (H : RankInv size k sigma alpha m w T)
    (hT : Sup.Spec.PosDef size T) : 0 < m k k + sigma * (w k * w k) / alpha := by
  obtain ⟨x, hx1, hx⟩ := rankInv_value hk H
  rw [← hx]
  exact hT x ⟨k, hk, by rw [hx1]; exact one_ne_zero⟩

/-- With positive pivots, an update, or a downdate to a positive definite matrix, succeeds. -/
theorem rankLoop_pos {size : Nat} {sigma : R} {T : Nat → Nat → R}
    (hT : 0 ≤ sigma ∨ Sup.Spec.PosDef size T) :
    ∀ (t k : Nat) (m : Nat → Nat → R) (w : Nat → R) (alpha : R), k + t = size → 0 < alpha →
      (∀ l, l < size → 0 < m l l) → RankInv size k sigma alpha m w T →
      ∃ m', rankLoop size sigma (List.range' k t) m w (some alpha) = some m' ∧
        ∀ l, l < size → 0 < m' l l
  | 0, k, m, w, alpha, hk, _, hd, _ => ⟨m, rfl, hd⟩
  | t + 1, k, m, w, alpha, hk, ha, hd, H => by
    have hdk := hd k (by omega)
    have hp : 0 < m k k + sigma * (w k * w k) / alpha := by
      rcases hT with h | h
      · have := mul_self_nonneg (w k)
        positivity
      · exact rankInv_pivot (by omega) H h
    have e1 : m k k + sigma * (w k * w k) / alpha =
        (m k k * alpha + sigma * (w k * w k)) / alpha := by
      have := ha.ne'
      field_simp
    have e2 : alpha + sigma * (w k * w k) / m k k =
        (m k k * alpha + sigma * (w k * w k)) / m k k := by
      have := hdk.ne'
      field_simp
    have hG : 0 < m k k * alpha + sigma * (w k * w k) := by
      rw [e1] at hp
      exact (div_pos_iff_of_pos_right ha).1 hp
    rw [List.range'_succ]
    rw [rankLoop_cons _ _ _ _ _ _ ha.ne', if_neg hdk.ne']
    refine rankLoop_pos hT t (k + 1) _ _ _ (by omega) ?_ ?_
      (rankInv_step (by omega) ha.ne' hdk.ne' (.inl hG.ne') H)
    · rw [e2]
      exact div_pos hG hdk
    · intro l hl
      by_cases hlk : l = k
      · subst hlk
        rw [stepMat_diag]
        exact hp
      · rw [stepMat_off _ _ _ _ _ _ _ _ hlk]
        exact hd l hl

end Verif.Dense
