import Verif.Spec.Divergence
import Mathlib.Tactic.Linarith
import Mathlib.Tactic.Ring
import Mathlib.Tactic.FieldSimp
import Mathlib.Tactic.SplitIfs
import Mathlib.Tactic.Positivity
import Mathlib.Tactic.LinearCombination

/-!
# Lemmas on the divergence bound
-/

namespace Verif.Divergence

open Spec

variable {R : Type} [Field R] [LinearOrder R] [IsStrictOrderedRing R]

theorem dist_le_iff {l : List R} {k b : R} (hb : 0 ≤ b) :
    dist l k ≤ b ↔ ∀ x ∈ l, |k * x - 1| ≤ b := by
  unfold dist
  induction l with
  | nil => simpa using hb
  | cons y t ih => simp [ih]

theorem dist_nonneg (l : List R) (k : R) : 0 ≤ dist l k := by
  unfold dist
  induction l with
  | nil => simp
  | cons y t ih => simp [ih]

theorem le_dist {l : List R} {k x : R} (hx : x ∈ l) : |k * x - 1| ≤ dist l k :=
  (dist_le_iff (dist_nonneg l k)).1 le_rfl x hx

theorem normInf_eq_max (k : R) (p : Slack R) :
    normInf k p = max |k * p.lmax - 1| |k * p.lmin - 1| := by
  unfold normInf
  simp only
  split_ifs with h
  · exact (max_eq_right h.le).symm
  · exact (max_eq_left (not_lt.1 h)).symm

/-- The infinity norm is attained at an extreme eigenvalue. -/
theorem normInf_eq {l : List R} {p : Slack R} (h : DataOf l p) (k : R) :
    normInf k p = dist l k := by
  rw [normInf_eq_max]
  apply le_antisymm
  · exact max_le (le_dist h.lmax_mem) (le_dist h.lmin_mem)
  · rw [dist_le_iff (le_max_of_le_left (abs_nonneg _))]
    intro x hx
    have h1 := h.lmin_le x hx
    have h2 := h.le_lmax x hx
    rw [le_max_iff, abs_le, abs_le]
    have a1 := le_abs_self (k * p.lmax - 1)
    have a2 := neg_abs_le (k * p.lmax - 1)
    have a3 := le_abs_self (k * p.lmin - 1)
    have a4 := neg_abs_le (k * p.lmin - 1)
    have hor := le_total |k * p.lmax - 1| |k * p.lmin - 1|
    rcases le_total 0 k with hk | hk
    · have b1 : k * p.lmin ≤ k * x := mul_le_mul_of_nonneg_left h1 hk
      have b2 : k * x ≤ k * p.lmax := mul_le_mul_of_nonneg_left h2 hk
      rcases hor with hor | hor
      · right; constructor <;> linarith
      · left; constructor <;> linarith
    · have b1 : k * x ≤ k * p.lmin := mul_le_mul_of_nonpos_left h1 hk
      have b2 : k * p.lmax ≤ k * x := mul_le_mul_of_nonpos_left h2 hk
      rcases hor with hor | hor
      · right; constructor <;> linarith
      · left; constructor <;> linarith

theorem distSq_eq {l : List R} {p : Slack R} (h : DataOf l p) (k : R) :
    k * k * p.frob - 2 * k * p.trace + p.rank = distSq l k := by
  rw [h.frob, h.trace, h.rank]
  unfold distSq
  clear h
  induction l with
  | nil => simp
  | cons y t ih =>
    simp only [List.map_cons, List.sum_cons, List.length_cons, Nat.cast_add, Nat.cast_one]
    rw [← ih]
    ring

theorem sq_le_distSq {l : List R} {k x : R} (hx : x ∈ l) : (k * x - 1) ^ 2 ≤ distSq l k := by
  unfold distSq
  exact List.single_le_sum (by simp only [List.mem_map]; rintro _ ⟨y, -, rfl⟩; positivity) _
    (List.mem_map.2 ⟨x, hx, rfl⟩)

/-- Roots of a quadratic. -/
theorem root_iff {A B C s x : R} (hA : 0 < A) (hs : s * s = B * B - 4 * A * C) :
    A * (x * x) + B * x + C = 0 ↔ x = (-B + s) / (2 * A) ∨ x = (-B - s) / (2 * A) := by
  rw [eq_div_iff (by positivity), eq_div_iff (by positivity)]
  constructor
  · intro h
    have : (x * (2 * A) - (-B + s)) * (x * (2 * A) - (-B - s)) = 0 := by
      linear_combination 4 * A * h - hs
    rcases mul_eq_zero.1 this with h | h
    · exact .inl (sub_eq_zero.1 h)
    · exact .inr (sub_eq_zero.1 h)
  · rintro (h | h)
    · have : 4 * A * (A * (x * x) + B * x + C) = 0 := by
        linear_combination (x * (2 * A) + B + s) * h + hs
      exact (mul_eq_zero.1 this).resolve_left (by positivity)
    · have : 4 * A * (A * (x * x) + B * x + C) = 0 := by
        linear_combination (x * (2 * A) + B - s) * h + hs
      exact (mul_eq_zero.1 this).resolve_left (by positivity)

theorem disc_nonneg {A B C x : R} (h : A * (x * x) + B * x + C = 0) :
    0 ≤ B * B - 4 * A * C := by
  have : B * B - 4 * A * C = (2 * A * x + B) * (2 * A * x + B) := by
    linear_combination -4 * A * h
  rw [this]
  exact mul_self_nonneg _

/-- What the theorems use of the data of a non-empty list of positive eigenvalues. -/
structure Pos (p : Slack R) : Prop where
  lmin : 0 < p.lmin
  le : p.lmin ≤ p.lmax
  frob : 0 < p.frob
  rank : 0 < p.rank
  sq : ∀ k, (k * p.lmax - 1) ^ 2 ≤ k * k * p.frob - 2 * k * p.trace + p.rank

theorem DataOf.pos {l : List R} {p : Slack R} (h : DataOf l p) (hl : ∀ x ∈ l, 0 < x) : Pos p where
  lmin := hl _ h.lmin_mem
  le := h.lmin_le _ h.lmax_mem
  frob := by
    have h1 : p.lmax ^ 2 ≤ p.frob := by
      rw [h.frob]
      exact List.single_le_sum (by simp only [List.mem_map]; rintro _ ⟨y, -, rfl⟩; positivity) _
        (List.mem_map.2 ⟨_, h.lmax_mem, rfl⟩)
    have := hl _ h.lmax_mem
    exact lt_of_lt_of_le (by positivity) h1
  rank := by
    rw [h.rank]
    exact_mod_cast List.length_pos_of_mem h.lmax_mem
  sq k := by
    rw [distSq_eq h]
    exact sq_le_distSq h.lmax_mem

variable {sqrt : R → R} {D : R} {p : Slack R}

theorem normInf_lt_one (hp : Pos p) {k : R} : normInf k p < 1 ↔ 0 < k ∧ k * p.lmax < 2 := by
  have h1 := hp.lmin
  have h2 := hp.le
  rw [normInf_eq_max, max_lt_iff, abs_lt, abs_lt]
  constructor
  · rintro ⟨⟨a, b⟩, c, d⟩
    refine ⟨?_, by linarith⟩
    by_contra hk
    have : k * p.lmin ≤ 0 := mul_nonpos_of_nonpos_of_nonneg (not_lt.1 hk) h1.le
    linarith
  · rintro ⟨a, b⟩
    have h3 : 0 < k * p.lmin := mul_pos a h1
    have h4 : k * p.lmin ≤ k * p.lmax := mul_le_mul_of_nonneg_left h2 a.le
    exact ⟨⟨by linarith, by linarith⟩, by linarith, by linarith⟩

theorem normInf_min (hp : Pos p) {k : R} (hk : 0 ≤ k) (hu : k ≤ 2 / (p.lmax + p.lmin)) :
    normInf k p = 1 - k * p.lmin := by
  have h1 := hp.lmin
  have h2 := hp.le
  have h3 : k * p.lmin ≤ k * p.lmax := mul_le_mul_of_nonneg_left h2 hk
  rw [le_div_iff₀ (by linarith)] at hu
  have h5 : k * p.lmin ≤ 1 := by linarith
  rw [normInf_eq_max, abs_of_nonpos (show k * p.lmin - 1 ≤ 0 by linarith), max_eq_right]
  · ring
  · rw [abs_le]
    constructor <;> linarith

theorem normInf_max (hp : Pos p) {k : R} (hu : 2 / (p.lmax + p.lmin) ≤ k) :
    normInf k p = k * p.lmax - 1 := by
  have h1 := hp.lmin
  have h2 := hp.le
  have hk : 0 ≤ k := le_trans (by apply div_nonneg <;> linarith) hu
  have h3 : k * p.lmin ≤ k * p.lmax := mul_le_mul_of_nonneg_left h2 hk
  rw [div_le_iff₀ (by linarith)] at hu
  rw [normInf_eq_max, abs_of_nonneg (show 0 ≤ k * p.lmax - 1 by linarith), max_eq_left]
  rw [abs_le]
  constructor <;> linarith

/-- On the first part of the interval the bound is a quadratic equation. -/
theorem divergence_min (hp : Pos p) {k : R} (hk : 0 < k) (hu : k ≤ 2 / (p.lmax + p.lmin)) :
    divergence k p = D ↔
      p.frob / p.lmin * (k * k) + -(2 * p.trace / p.lmin + D) * k + p.rank / p.lmin = 0 := by
  have h1 := hp.lmin
  have h2 : 0 < k * p.lmin := mul_pos hk h1
  unfold divergence
  rw [normInf_min hp hk.le hu, show 1 - (1 - k * p.lmin) = k * p.lmin by ring,
    div_eq_iff h2.ne', ← sub_eq_zero]
  have : (p.frob / p.lmin * (k * k) + -(2 * p.trace / p.lmin + D) * k + p.rank / p.lmin) * p.lmin =
      k * k * p.frob - 2 * k * p.trace + p.rank - D * (k * p.lmin) := by
    field_simp
    ring
  rw [← this, mul_eq_zero]
  exact or_iff_left h1.ne'

/-- On the second part as well. -/
theorem divergence_max (hp : Pos p) {k : R} (hu : 2 / (p.lmax + p.lmin) ≤ k)
    (hk : k * p.lmax < 2) :
    divergence k p = D ↔
      p.frob * (k * k) + (-2 * p.trace + p.lmax * D) * k + (p.rank - 2 * D) = 0 := by
  unfold divergence
  rw [normInf_max hp hu, show 1 - (k * p.lmax - 1) = 2 - k * p.lmax by ring,
    div_eq_iff (by linarith), ← sub_eq_zero]
  have : k * k * p.frob - 2 * k * p.trace + p.rank - D * (2 - k * p.lmax) =
      p.frob * (k * k) + (-2 * p.trace + p.lmax * D) * k + (p.rank - 2 * D) := by ring
  rw [this]

/-- The first branch: the largest solution in `(0, 2 / (lmin + lmax)]`. -/
theorem minBranch_spec (hs : ∀ x, 0 ≤ x → SqrtAt sqrt x) (hp : Pos p) :
    (lambdaMinBranch sqrt D p = -1 ∨
      (0 < lambdaMinBranch sqrt D p ∧ lambdaMinBranch sqrt D p ≤ 2 / (p.lmax + p.lmin) ∧
        divergence (lambdaMinBranch sqrt D p) p = D)) ∧
    ∀ k, 0 < k → k ≤ 2 / (p.lmax + p.lmin) → divergence k p = D →
      k ≤ lambdaMinBranch sqrt D p := by
  have h1 := hp.lmin
  have hA : 0 < p.frob / p.lmin := div_pos hp.frob h1
  have hn : 0 < p.rank / p.lmin := div_pos hp.rank h1
  unfold lambdaMinBranch solveQuadratic
  simp only
  generalize hu : 2 * p.trace / p.lmin * (2 * p.trace / p.lmin) +
    2 * (2 * p.trace / p.lmin) * D + D * D - 4 * (p.frob / p.lmin) * (p.rank / p.lmin) = u
  have hB : u = -(2 * p.trace / p.lmin + D) * -(2 * p.trace / p.lmin + D) -
      4 * (p.frob / p.lmin) * (p.rank / p.lmin) := by
    rw [← hu]; ring
  by_cases hneg : u < 0
  · rw [if_pos hneg]
    refine ⟨.inl rfl, fun k h2 h3 h4 => ?_⟩
    rw [divergence_min hp h2 h3] at h4
    have := disc_nonneg h4
    rw [← hB] at this
    exact absurd this (not_le.2 hneg)
  · rw [if_neg hneg]
    simp only
    have hsq := (hs u (not_lt.1 hneg)).2
    have hroot := fun x => root_iff (x := x) (C := p.rank / p.lmin) hA (hsq.trans hB)
    simp only [neg_neg] at hroot
    generalize hx : (2 * p.trace / p.lmin + D + sqrt u) / (2 * (p.frob / p.lmin)) = x at *
    generalize hy : (2 * p.trace / p.lmin + D - sqrt u) / (2 * (p.frob / p.lmin)) = y at *
    have hrx := (hroot x).2 (.inl rfl)
    have hry := (hroot y).2 (.inr rfl)
    have hpos : ∀ z, inLimits z 0 (2 / (p.lmax + p.lmin)) = true →
        p.frob / p.lmin * (z * z) + -(2 * p.trace / p.lmin + D) * z + p.rank / p.lmin = 0 →
        0 < z ∧ z ≤ 2 / (p.lmax + p.lmin) ∧ divergence z p = D := by
      intro z hz hr
      simp only [inLimits, Bool.and_eq_true, decide_eq_true_eq] at hz
      have h0 : 0 < z := by
        rcases hz.1.lt_or_eq with h | h
        · exact h
        · rw [← h] at hr
          simp only [mul_zero, zero_add] at hr
          exact absurd hr hn.ne'
      exact ⟨h0, hz.2, (divergence_min hp h0 hz.2).2 hr⟩
    have hin : ∀ k, 0 < k → k ≤ 2 / (p.lmax + p.lmin) → inLimits k 0 (2 / (p.lmax + p.lmin)) = true := by
      intro k h2 h3
      simp [inLimits, h2.le, h3]
    constructor
    · split_ifs with a b
      all_goals first
        | exact .inl rfl
        | exact .inr (hpos y a hry)
        | exact .inr (hpos x (by assumption) hrx)
    · intro k h2 h3 h4
      have h5 := (hroot k).1 ((divergence_min hp h2 h3).1 h4)
      have h6 := hin k h2 h3
      rcases h5 with rfl | rfl
      · rw [if_pos h6]
        split_ifs with a b
        · exact b.le
        · exact le_rfl
        · exact le_rfl
      · rw [if_pos h6]
        split_ifs with a b b
        · exact le_rfl
        · exact not_lt.1 b
        · exact le_rfl
        · exact not_lt.1 b

/-- The second branch: the largest solution in `[2 / (lmin + lmax), 2 / lmax)`. -/
theorem maxBranch_spec (hs : ∀ x, 0 ≤ x → SqrtAt sqrt x) (hD : 0 < D) (hp : Pos p) :
    (lambdaMaxBranch sqrt D p = -1 ∨
      (2 / (p.lmax + p.lmin) ≤ lambdaMaxBranch sqrt D p ∧ lambdaMaxBranch sqrt D p * p.lmax < 2 ∧
        divergence (lambdaMaxBranch sqrt D p) p = D)) ∧
    ∀ k, 2 / (p.lmax + p.lmin) ≤ k → k * p.lmax < 2 → divergence k p = D →
      k ≤ lambdaMaxBranch sqrt D p := by
  have h1 := hp.lmin
  unfold lambdaMaxBranch rationalRoot
  simp only
  generalize hu : -2 * p.trace * (-2 * p.trace) - 4 * p.frob * p.rank + 8 * p.frob * D +
    2 * (-2 * p.trace) * p.lmax * D + (p.lmax * D) ^ 2 = u
  have hB : u = (-2 * p.trace + p.lmax * D) * (-2 * p.trace + p.lmax * D) -
      4 * p.frob * (p.rank - 2 * D) := by
    rw [← hu]; ring
  by_cases hneg : u < 0
  · rw [if_pos hneg]
    refine ⟨.inl rfl, fun k h2 h3 h4 => ?_⟩
    rw [divergence_max hp h2 h3] at h4
    have := disc_nonneg h4
    rw [← hB] at this
    exact absurd this (not_le.2 hneg)
  · rw [if_neg hneg]
    simp only
    have hsq := (hs u (not_lt.1 hneg)).2
    have hs0 := (hs u (not_lt.1 hneg)).1
    have hroot := fun x => root_iff (x := x) (C := p.rank - 2 * D) hp.frob (hsq.trans hB)
    rw [show -(-2 * p.trace + p.lmax * D - sqrt u) = -(-2 * p.trace + p.lmax * D) + sqrt u by ring]
    generalize hx : (-(-2 * p.trace + p.lmax * D) + sqrt u) / (2 * p.frob) = x at *
    have hrx := (hroot x).2 (.inl rfl)
    have hfin : x * p.lmax < 2 := by
      by_contra hcon
      have h2 := hp.sq x
      have h3 : x * x * p.frob - 2 * x * p.trace + p.rank = D * (2 - x * p.lmax) := by
        linear_combination hrx
      rw [h3] at h2
      have h4 : D * (2 - x * p.lmax) ≤ 0 :=
        mul_nonpos_of_nonneg_of_nonpos hD.le (by linarith)
      nlinarith
    constructor
    · split_ifs with a
      · exact .inr ⟨a, hfin, (divergence_max hp a hfin).2 hrx⟩
      · exact .inl rfl
    · intro k h2 h3 h4
      have h5 := (hroot k).1 ((divergence_max hp h2 h3).1 h4)
      have h6 : k ≤ x := by
        rcases h5 with rfl | rfl
        · exact le_rfl
        · rw [← hx]
          exact div_le_div_of_nonneg_right (by linarith) (by linarith [hp.frob])
      rw [if_pos (h2.trans h6)]
      exact h6

theorem not_finite_neg_one (hp : Pos p) : boundIsFinite (-1) p = false := by
  simp only [boundIsFinite, decide_eq_false_iff_not]
  rw [normInf_lt_one hp]
  intro h
  linarith [h.1]

/-- The inverse returns the largest point of the interval on which the bound has the given value, or
minus one if there is none. -/
theorem inverse_spec (hs : ∀ x, 0 ≤ x → SqrtAt sqrt x) (hD : 0 < D) (hp : Pos p) :
    (inverse sqrt D p = -1 ∨
      (normInf (inverse sqrt D p) p < 1 ∧ divergence (inverse sqrt D p) p = D)) ∧
    ∀ k, normInf k p < 1 → divergence k p = D → k ≤ inverse sqrt D p := by
  have h1 := hp.lmin
  have hle := hp.le
  obtain ⟨a1, b1⟩ := minBranch_spec (D := D) hs hp
  obtain ⟨a2, b2⟩ := maxBranch_spec hs hD hp
  unfold inverse
  simp only
  generalize lambdaMinBranch sqrt D p = k1 at *
  generalize lambdaMaxBranch sqrt D p = k2 at *
  have hu : (2 / (p.lmax + p.lmin)) * p.lmax < 2 := by
    rw [div_mul_eq_mul_div, div_lt_iff₀ (by linarith)]
    linarith
  have f1 : k1 = -1 ∨ (boundIsFinite k1 p = true ∧ divergence k1 p = D) := by
    rcases a1 with a | ⟨a, b, c⟩
    · exact .inl a
    · refine .inr ⟨?_, c⟩
      simp only [boundIsFinite, decide_eq_true_eq]
      rw [normInf_lt_one hp]
      refine ⟨a, lt_of_le_of_lt ?_ hu⟩
      exact mul_le_mul_of_nonneg_right b (by linarith)
  have f2 : k2 = -1 ∨ (boundIsFinite k2 p = true ∧ divergence k2 p = D) := by
    rcases a2 with a | ⟨a, b, c⟩
    · exact .inl a
    · refine .inr ⟨?_, c⟩
      simp only [boundIsFinite, decide_eq_true_eq]
      rw [normInf_lt_one hp]
      refine ⟨lt_of_lt_of_le ?_ a, b⟩
      apply div_pos <;> linarith
  have e1 : (if boundIsFinite k1 p = true then k1 else -1) = k1 := by
    rcases f1 with rfl | ⟨h, -⟩
    · split_ifs <;> rfl
    · rw [if_pos h]
  rw [e1]
  have hfin : ∀ k, boundIsFinite k p = true ↔ normInf k p < 1 := by
    intro k; simp [boundIsFinite]
  have hnf := not_finite_neg_one hp
  constructor
  · split_ifs with h
    · rcases f2 with rfl | f2
      · exact .inl rfl
      · exact .inr ⟨(hfin _).1 f2.1, f2.2⟩
    · rcases f1 with rfl | f1
      · exact .inl rfl
      · exact .inr ⟨(hfin _).1 f1.1, f1.2⟩
  · intro k hk hd
    have hk' := (normInf_lt_one hp).1 hk
    have hmax : k ≤ k1 ∨ (k ≤ k2 ∧ boundIsFinite k2 p = true) := by
      rcases le_total k (2 / (p.lmax + p.lmin)) with h | h
      · exact .inl (b1 k hk'.1 h hd)
      · have h3 := b2 k h hk'.2 hd
        rcases f2 with rfl | f2
        · linarith [hk'.1]
        · exact .inr ⟨h3, f2.1⟩
    split_ifs with h
    · rcases hmax with h' | h'
      · exact h'.trans h.1.le
      · exact h'.1
    · rcases hmax with h' | h'
      · exact h'
      · have : ¬ k1 < k2 := fun hc => h ⟨hc, h'.2⟩
        exact h'.1.trans (not_lt.1 this)

/-! ### Aggregation -/

/-- The body of the aggregation loop. -/
abbrev combine (p t : Slack R) : Slack R :=
  { p with
    lmax := if p.lmax < t.lmax then t.lmax else p.lmax
    lmin := if t.lmin < p.lmin then t.lmin else p.lmin
    frob := p.frob + t.frob
    trace := p.trace + t.trace }

theorem combine_data {l l' : List R} {p t : Slack R}
    (h : DataOf l { p with rank := l.length }) (h' : DataOf l' t) :
    DataOf (l ++ l') { combine p t with rank := (l ++ l').length } := by
  obtain ⟨f1, t1, -, n1, n2, x1, x2⟩ := h
  obtain ⟨f2, t2, -, m1, m2, y1, y2⟩ := h'
  simp only at f1 t1 n1 n2 x1 x2
  refine ⟨by simp [combine, f1, f2], by simp [combine, t1, t2], rfl, ?_, ?_, ?_, ?_⟩
  all_goals simp only [combine]
  · split_ifs
    · exact List.mem_append_right _ m1
    · exact List.mem_append_left _ n1
  · intro x hx
    rcases List.mem_append.1 hx with hx | hx
    · have := n2 x hx
      split_ifs with h
      · exact h.le.trans this
      · exact this
    · have := m2 x hx
      split_ifs with h
      · exact this
      · exact (not_lt.1 h).trans this
  · split_ifs
    · exact List.mem_append_right _ y1
    · exact List.mem_append_left _ x1
  · intro x hx
    rcases List.mem_append.1 hx with hx | hx
    · have := x2 x hx
      split_ifs with h
      · exact this.trans h.le
      · exact this
    · have := y2 x hx
      split_ifs with h
      · exact this
      · exact this.trans (not_lt.1 h)

theorem foldl_data (ls : List (List R × Slack R)) (hd : ∀ t ∈ ls, DataOf t.1 t.2) :
    ∀ (l : List R) (p : Slack R), DataOf l { p with rank := l.length } →
      DataOf (l ++ (ls.map (·.1)).flatten)
        { (ls.map (·.2)).foldl combine p with
          rank := (l ++ (ls.map (·.1)).flatten).length } := by
  induction ls with
  | nil => intro l p h; simpa using h
  | cons a ls ih =>
    intro l p h
    have := ih (fun t ht => hd t (List.mem_cons_of_mem _ ht)) _ _
      (combine_data h (hd a List.mem_cons_self))
    simpa [List.append_assoc] using this

theorem foldl_rank (ls : List (Slack R)) (p : Slack R) : (ls.foldl combine p).rank = p.rank := by
  induction ls generalizing p with
  | nil => rfl
  | cons a ls ih => rw [List.foldl_cons, ih]

theorem foldl_norm (ls : List (R × R)) (p : R × R) :
    let q := ls.foldl (fun p t => (if p.1 < t.1 then t.1 else p.1, p.2 + t.2)) p
    (q.1 = p.1 ∨ ∃ t ∈ ls, q.1 = t.1) ∧ p.1 ≤ q.1 ∧ (∀ t ∈ ls, t.1 ≤ q.1) ∧
      q.2 = p.2 + (ls.map (·.2)).sum := by
  induction ls generalizing p with
  | nil => simp
  | cons a ls ih =>
    have := ih (if p.1 < a.1 then a.1 else p.1, p.2 + a.2)
    simp only [List.foldl_cons] at this ⊢
    obtain ⟨h1, h2, h3, h4⟩ := this
    have hp : p.1 ≤ if p.1 < a.1 then a.1 else p.1 := by
      split_ifs with h
      · exact h.le
      · exact le_rfl
    have ha : a.1 ≤ if p.1 < a.1 then a.1 else p.1 := by
      split_ifs with h
      · exact le_rfl
      · exact not_lt.1 h
    refine ⟨?_, hp.trans h2, ?_, ?_⟩
    · rcases h1 with h1 | ⟨t, ht, h1⟩
      · split_ifs at h1 with h
        · exact .inr ⟨a, List.mem_cons_self, by rw [if_pos h]; exact h1⟩
        · exact .inl (by rw [if_neg h]; exact h1)
      · exact .inr ⟨t, List.mem_cons_of_mem _ ht, h1⟩
    · intro t ht
      rcases List.mem_cons.1 ht with rfl | ht
      · exact ha.trans h2
      · exact h3 t ht
    · rw [h4, List.map_cons, List.sum_cons, add_assoc]

/-! ### Fallback -/

theorem not_finite {k : R} (h1 : p.lmin ≤ 0) (h2 : 0 < p.lmax) : boundIsFinite k p = false := by
  simp only [boundIsFinite, decide_eq_false_iff_not]
  rw [normInf_eq_max, max_lt_iff, abs_lt, abs_lt]
  rintro ⟨⟨a, b⟩, c, d⟩
  have hk : 0 < k := by
    by_contra hc
    have := mul_nonpos_of_nonpos_of_nonneg (not_lt.1 hc) h2.le
    linarith
  have := mul_nonpos_of_nonneg_of_nonpos hk.le h1
  linarith

theorem sum_le_length_mul {l : List R} {b : R} (h : ∀ x ∈ l, x ≤ b) : l.sum ≤ l.length * b := by
  induction l with
  | nil => simp
  | cons a l ih =>
    have h1 := ih fun x hx => h x (List.mem_cons_of_mem _ hx)
    have h2 := h a List.mem_cons_self
    simp only [List.sum_cons, List.length_cons, Nat.cast_add, Nat.cast_one]
    linarith

theorem distSq_nonneg (l : List R) (k : R) : 0 ≤ distSq l k :=
  List.sum_nonneg (by simp only [List.mem_map]; rintro _ ⟨y, -, rfl⟩; positivity)

theorem frob_pos {l : List R} (h : DataOf l p) (hp : 0 < p.lmax) : 0 < p.frob := by
  have h1 : p.lmax ^ 2 ≤ p.frob := by
    rw [h.frob]
    exact List.single_le_sum (by simp only [List.mem_map]; rintro _ ⟨y, -, rfl⟩; positivity) _
      (List.mem_map.2 ⟨_, h.lmax_mem, rfl⟩)
  exact lt_of_lt_of_le (by positivity) h1

end Verif.Divergence
