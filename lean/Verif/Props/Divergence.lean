import Verif.Lemmas.Divergence
import Mathlib.Analysis.SpecialFunctions.Sqrt
import Mathlib.Algebra.Order.Ring.Rat
import Mathlib.Tactic.NormNum

/-!
# Properties of the choice of the barrier parameter (C30, C31, C32, C51)
-/

namespace Verif.Divergence

open Spec

variable {R : Type} [Field R] [LinearOrder R] [IsStrictOrderedRing R]
variable {sqrt : R → R} {D : R} {p : Slack R} {l : List R}

/-! ### C30 -/

/-- The data of the whole program is the data of the product cone, that is, of the concatenation of
the lists of eigenvalues of the constraints, provided there is a constraint and the eigenvalues do
not exceed 30000 in absolute value.  This is partial: for larger eigenvalues the property fails. -/
theorem C30_aggregate_partial (ls : List (List R × Slack R)) (hne : ls ≠ [])
    (hd : ∀ t ∈ ls, DataOf t.1 t.2) (hb : ∀ t ∈ ls, ∀ x ∈ t.1, |x| ≤ 30000) :
    DataOf (ls.map (·.1)).flatten
      (aggregate ((ls.map (·.1)).flatten.length : R) (ls.map (·.2))) := by
  obtain ⟨a, ls⟩ : ∃ a ls', ls = a :: ls' := List.exists_cons_of_ne_nil hne
  obtain ⟨ls, rfl⟩ := ls
  have ha := hd a List.mem_cons_self
  have hb1 := abs_le.1 (hb a List.mem_cons_self _ ha.lmin_mem)
  have hb2 := abs_le.1 (hb a List.mem_cons_self _ ha.lmax_mem)
  have h0 : DataOf a.1 { combine
      (⟨0, 0, 30000, -30000, (((a :: ls).map (·.1)).flatten.length : R)⟩ : Slack R) a.2 with
        rank := a.1.length } := by
    obtain ⟨f2, t2, -, m1, m2, y1, y2⟩ := ha
    have e1 : (if a.2.lmin < 30000 then a.2.lmin else 30000) = a.2.lmin := by
      split_ifs with h
      · rfl
      · linarith [not_lt.1 h]
    have e2 : (if -30000 < a.2.lmax then a.2.lmax else -30000) = a.2.lmax := by
      split_ifs with h
      · rfl
      · linarith [not_lt.1 h]
    refine ⟨by simp [f2], by simp [t2], rfl, ?_, ?_, ?_, ?_⟩
    all_goals simp only [combine, e1, e2]
    all_goals assumption
  have h1 := foldl_data ls (fun t ht => hd t (List.mem_cons_of_mem _ ht)) _ _ h0
  have h2 := foldl_rank (ls.map (·.2)) (combine
      (⟨0, 0, 30000, -30000, (((a :: ls).map (·.1)).flatten.length : R)⟩ : Slack R) a.2)
  refine ⟨h1.frob, h1.trace, ?_, h1.lmin_mem, h1.lmin_le, h1.lmax_mem, h1.le_lmax⟩
  exact h2

example : (∀ t ∈ [([(1 : ℚ), 2], (⟨5, 3, 1, 2, 2⟩ : Slack ℚ)), ([-1, 5], ⟨26, 4, -1, 5, 2⟩)],
      DataOf t.1 t.2) ∧
    aggregate 4 [(⟨5, 3, 1, 2, 2⟩ : Slack ℚ), ⟨26, 4, -1, 5, 2⟩] = ⟨31, 7, -1, 5, 4⟩ := by
  refine ⟨?_, by decide +kernel⟩
  simp only [List.mem_cons, List.not_mem_nil, or_false, forall_eq_or_imp, forall_eq]
  constructor <;>
    exact ⟨by norm_num, by norm_num, by norm_num, by simp, by norm_num, by simp, by norm_num⟩

/-- The aggregation starts from ±30000: a program with the single eigenvalue 40000 gets the smallest
eigenvalue 30000. -/
theorem C30_sentinel_violated :
    DataOf [(40000 : ℚ)] ⟨40000 ^ 2, 40000, 40000, 40000, 1⟩ ∧
    aggregate 1 [⟨40000 ^ 2, 40000, 40000, 40000, 1⟩] =
      (⟨40000 ^ 2, 40000, 30000, 40000, 1⟩ : Slack ℚ) ∧
    ¬ DataOf [(40000 : ℚ)] (aggregate 1 [⟨40000 ^ 2, 40000, 40000, 40000, 1⟩]) := by
  refine ⟨⟨by norm_num, by norm_num, by norm_num, by simp, by simp, by simp, by simp⟩,
    by decide +kernel, fun h => ?_⟩
  have := h.lmin_mem
  revert this
  decide +kernel

/-- The norm of the direction of the whole program is the largest norm of the constraints, and its
square norm is the sum. -/
theorem C30_norm (ls : List (R × R)) (hne : ls ≠ []) (hb : ∀ t ∈ ls, 0 ≤ t.1) :
    (∃ t ∈ ls, (aggregateNorm ls).1 = t.1) ∧ (∀ t ∈ ls, t.1 ≤ (aggregateNorm ls).1) ∧
    (aggregateNorm ls).2 = (ls.map (·.2)).sum := by
  obtain ⟨h1, -, h3, h4⟩ := foldl_norm ls (-1, 0)
  refine ⟨?_, h3, ?_⟩
  · rcases h1 with h1 | h1
    · obtain ⟨a, ha⟩ := List.exists_mem_of_ne_nil ls hne
      have := (hb a ha).trans (h3 a ha)
      rw [h1] at this
      exact absurd this (by norm_num)
    · exact h1
  · rw [zero_add] at h4
    exact h4

example : (∀ t ∈ [((1 : ℚ), (1 : ℚ)), (3, 9), (2, 5)], 0 ≤ t.1) ∧
    aggregateNorm [((1 : ℚ), (1 : ℚ)), (3, 9), (2, 5)] = (3, 15) := by
  decide +kernel

/-! ### C31 -/

/-- For positive eigenvalues and a positive requested value: if the inversion returns a parameter
other than -1, the bound is finite there and has the requested value, and the parameter is the
largest such; if it returns -1 there is none. -/
theorem C31_inverse (hs : ∀ x, 0 ≤ x → SqrtAt sqrt x) (hd : DataOf l p) (hl : ∀ x ∈ l, 0 < x)
    (hD : 0 < D) :
    (inverse sqrt D p ≠ -1 →
      0 < inverse sqrt D p ∧ dist l (inverse sqrt D p) < 1 ∧ bound l (inverse sqrt D p) = D ∧
      ∀ k, dist l k < 1 → bound l k = D → k ≤ inverse sqrt D p) ∧
    (inverse sqrt D p = -1 → ∀ k, dist l k < 1 → bound l k ≠ D) := by
  have hp := DataOf.pos hd hl
  have hdiv : ∀ k, divergence k p = bound l k := by
    intro k
    unfold divergence bound
    rw [distSq_eq hd, normInf_eq hd]
  obtain ⟨h1, h2⟩ := inverse_spec hs hD hp
  simp only [normInf_eq hd, hdiv] at h1 h2
  constructor
  · intro hne
    obtain ⟨h3, h4⟩ := h1.resolve_left hne
    refine ⟨?_, h3, h4, h2⟩
    rw [← normInf_eq hd] at h3
    exact ((normInf_lt_one hp).1 h3).1
  · intro he k hk hb
    have h3 := h2 k hk hb
    rw [← normInf_eq hd] at hk
    have := ((normInf_lt_one hp).1 hk).1
    rw [he] at h3
    linarith

/-- The hypotheses for the real square root and the eigenvalues 1, 2, 4. -/
example : (∀ x, 0 ≤ x → SqrtAt Real.sqrt x) ∧ DataOf [(1 : ℝ), 2, 4] ⟨21, 7, 1, 4, 3⟩ ∧
    (∀ x ∈ [(1 : ℝ), 2, 4], 0 < x) := by
  refine ⟨fun x hx => ⟨Real.sqrt_nonneg x, Real.mul_self_sqrt hx⟩, ?_, ?_⟩
  · exact ⟨by norm_num, by norm_num, by norm_num, by simp, by simp, by simp, by simp; norm_num⟩
  · simp

/-- The requested value 1 for the eigenvalues 1 and 2 is attained at 2/5 and 4/5. -/
example : inverse (fun x : ℚ => if x = 16 then 4 else if x = 9 then 3 else 0)
    1 ⟨5, 3, 1, 2, 2⟩ = 4 / 5 ∧ bound [(1 : ℚ), 2] (2 / 5) = 1 ∧ bound [(1 : ℚ), 2] (4 / 5) = 1 := by
  decide +kernel

/-- For negative eigenvalues (all slacks violated) the inversion may return a parameter other than
-1 at which the bound has another value: eigenvalue -1, requested value 1/6, returned -1/2, where
the bound is 1/2.  The table of square roots is right at the two numbers that occur. -/
theorem C31_negative_violated :
    ∃ sqrt : ℚ → ℚ, SqrtAt sqrt (25 / 36) ∧ SqrtAt sqrt (4 / 1) ∧
      DataOf [(-1 : ℚ)] ⟨1, -1, -1, -1, 1⟩ ∧
      inverse sqrt (1 / 6) ⟨1, -1, -1, -1, 1⟩ = -1 / 2 ∧
      bound [(-1 : ℚ)] (-1 / 2) = 1 / 2 := by
  refine ⟨fun x => if x = 25 / 36 then 5 / 6 else 2, by unfold SqrtAt; decide +kernel,
    by unfold SqrtAt; decide +kernel,
    ⟨by norm_num, by norm_num, by norm_num, by simp, by simp, by simp, by simp⟩,
    by decide +kernel, by decide +kernel⟩

/-! ### C32 -/

/-- If all eigenvalues are positive, the fallback parameter minimises the largest deviation of
`k` times an eigenvalue from one over all `k`, and the minimum is less than one. -/
theorem C32_minimises (hd : DataOf l p) (hl : ∀ x ∈ l, 0 < x) :
    (∀ k, dist l (minimizeNormInf p) ≤ dist l k) ∧ dist l (minimizeNormInf p) < 1 := by
  have hp := DataOf.pos hd hl
  have h1 := hp.lmin
  have h2 := hp.le
  have he : minimizeNormInf p = 2 / (p.lmax + p.lmin) := by
    rw [minimizeNormInf, if_pos h1, add_comm]
  have hn := normInf_max hp (k := minimizeNormInf p) he.ge
  rw [normInf_eq hd] at hn
  have hv : minimizeNormInf p * (p.lmax + p.lmin) = 2 := by
    rw [he, div_mul_cancel₀]
    linarith
  have h0 : 0 < minimizeNormInf p := by
    rw [he]
    apply div_pos <;> linarith
  have h3 : 0 < minimizeNormInf p * p.lmin := mul_pos h0 h1
  refine ⟨fun k => ?_, by rw [hn]; linarith⟩
  rw [hn]
  rcases le_total (minimizeNormInf p) k with h | h
  · have h4 := (abs_le.1 (le_dist (k := k) hd.lmax_mem)).2
    have := mul_le_mul_of_nonneg_right h (h1.le.trans h2)
    linarith
  · have h4 := (abs_le.1 (le_dist (k := k) hd.lmin_mem)).1
    have := mul_le_mul_of_nonneg_right h h1.le
    linarith

example : DataOf [(1 : ℚ), 2, 4] ⟨21, 7, 1, 4, 3⟩ ∧ (∀ x ∈ [(1 : ℚ), 2, 4], 0 < x) ∧
    minimizeNormInf (⟨21, 7, 1, 4, 3⟩ : Slack ℚ) = 2 / 5 := by
  refine ⟨⟨by norm_num, by norm_num, by norm_num, by simp, by simp, by simp, by simp; norm_num⟩,
    by decide +kernel, by decide +kernel⟩

/-! ### C51 -/

/-- For positive eigenvalues the parameter chosen is the largest one with the requested bound, or,
if there is none, the one with the smallest infinity norm; in both cases it is positive and the
bound is finite there. -/
theorem C51_positive (hs : ∀ x, 0 ≤ x → SqrtAt sqrt x) (hd : DataOf l p) (hl : ∀ x ∈ l, 0 < x)
    {f : R} (hf : 0 < f) :
    0 < muFromDivergence sqrt f p ∧ dist l (muFromDivergence sqrt f p) < 1 ∧
    (bound l (muFromDivergence sqrt f p) = f * l.length ∨
      ((∀ k, dist l k < 1 → bound l k ≠ f * l.length) ∧
        ∀ k, dist l (muFromDivergence sqrt f p) ≤ dist l k)) := by
  have hp := DataOf.pos hd hl
  have hr := hp.rank
  have hl0 : (0 : R) < l.length := by rw [← hd.rank]; exact hr
  obtain ⟨h1, h2⟩ := C31_inverse (l := l) (D := f * p.rank) hs hd hl (mul_pos hf hr)
  obtain ⟨h3, h4⟩ := C32_minimises hd hl
  have h5 : 0 < minimizeNormInf p := by
    rw [minimizeNormInf, if_pos hp.lmin]
    have := hp.lmin
    have := hp.le
    apply div_pos <;> linarith
  rw [hd.rank] at h1 h2
  unfold muFromDivergence
  simp only [hd.rank]
  by_cases hk : inverse sqrt (f * (l.length : R)) p = -1
  · rw [if_pos hk, if_neg (fun h => absurd h.1 (not_lt.2 h5.le))]
    exact ⟨h5, h4, .inr ⟨h2 hk, h3⟩⟩
  · obtain ⟨a, b, c, -⟩ := h1 hk
    rw [if_neg hk, if_neg (fun h => absurd h.1 (not_lt.2 a.le))]
    exact ⟨a, b, .inl c⟩

/-- If some eigenvalue is not positive but the trace is, the parameter chosen is positive, and the
square of the distance of `k S` from the identity is the smaller of 3/2 of the minimum and 7/10 of
the rank, or the minimum itself if that is larger. -/
theorem C51_fallback (hs : ∀ x, 0 ≤ x → SqrtAt sqrt x) (hd : DataOf l p) (hmin : p.lmin ≤ 0)
    (ht : 1 / 10 ^ 12 < l.sum) {f : R} :
    ∃ m, (∀ k, m ≤ distSq l k) ∧ (∃ k, m = distSq l k) ∧ 0 < muFromDivergence sqrt f p ∧
      distSq l (muFromDivergence sqrt f p) = max m (min (3 / 2 * m) (7 / 10 * l.length)) := by
  have ht0 : 0 < l.sum := lt_trans (by positivity) ht
  have hmax : 0 < p.lmax := by
    by_contra hc
    have h1 := sum_le_length_mul hd.le_lmax
    have h2 : (l.length : R) * p.lmax ≤ 0 :=
      mul_nonpos_of_nonneg_of_nonpos (Nat.cast_nonneg _) (not_lt.1 hc)
    linarith
  have hF := frob_pos hd hmax
  have hT : p.trace = l.sum := hd.trace
  have hmu : muFromDivergence sqrt f p = normFallback sqrt p := by
    unfold muFromDivergence inverse
    simp only [not_finite hmin hmax, Bool.false_eq_true, if_false, and_false, if_true]
    rw [minimizeNormInf, if_neg (not_lt.2 hmin), if_pos]
    exact ⟨by norm_num, by rw [hT]; exact ht⟩
  have hq : ∀ k, distSq l k = p.frob * (k * k) - 2 * p.trace * k + p.rank := by
    intro k
    rw [← distSq_eq hd]
    ring
  have hm : ∀ k, distSq l (p.trace / p.frob) ≤ distSq l k := by
    intro k
    have : distSq l k - distSq l (p.trace / p.frob) = p.frob * (k - p.trace / p.frob) ^ 2 := by
      rw [hq, hq]
      field_simp
      ring
    have h2 : 0 ≤ p.frob * (k - p.trace / p.frob) ^ 2 := by positivity
    linarith
  refine ⟨distSq l (p.trace / p.frob), hm, ⟨_, rfl⟩, ?_⟩
  have hm0 := distSq_nonneg l (p.trace / p.frob)
  have hnb : normBound p = min (3 / 2 * distSq l (p.trace / p.frob)) (7 / 10 * l.length) := by
    have e : p.frob * (p.trace / p.frob) * (p.trace / p.frob) - 2 * p.trace * (p.trace / p.frob) +
        p.rank = distSq l (p.trace / p.frob) := by
      rw [hq]
      ring
    unfold normBound
    simp only [e]
    rw [hd.rank, mul_comm (l.length : R)]
    split_ifs with h
    · exact (min_eq_right h.le).symm
    · exact (min_eq_left (not_lt.1 h)).symm
  rw [hmu, ← hnb]
  have hdisc : -2 * p.trace * (-2 * p.trace) - 4 * p.frob * (p.rank - normBound p) =
      4 * p.frob * (normBound p - distSq l (p.trace / p.frob)) := by
    rw [hq]
    field_simp
    ring
  have hT0 : 0 < p.trace := by rw [hT]; exact ht0
  unfold normFallback
  simp only
  rw [hdisc]
  split_ifs with h
  · have h2 : normBound p < distSq l (p.trace / p.frob) := by
      by_contra hc
      have : 0 ≤ 4 * p.frob * (normBound p - distSq l (p.trace / p.frob)) :=
        mul_nonneg (by linarith) (by linarith [not_lt.1 hc])
      linarith
    exact ⟨div_pos hT0 hF, (max_eq_left h2.le).symm⟩
  · have h2 : distSq l (p.trace / p.frob) ≤ normBound p := by
      by_contra hc
      exact h (mul_neg_of_pos_of_neg (by linarith) (by linarith [not_le.1 hc]))
    obtain ⟨s1, s2⟩ := hs _ (not_lt.1 h)
    rw [max_eq_right h2]
    generalize sqrt (4 * p.frob * (normBound p - distSq l (p.trace / p.frob))) = s at *
    refine ⟨div_pos (by linarith) (by linarith), ?_⟩
    rw [hq] at s2 ⊢
    field_simp at s2 ⊢
    linear_combination s2

/-- Eigenvalues -1 and 3: the trace is positive, the minimum of the square distance is 8/5. -/
example : DataOf [(-1 : ℚ), 3] ⟨10, 2, -1, 3, 2⟩ ∧ (1 : ℚ) / 10 ^ 12 < [(-1 : ℚ), 3].sum ∧
    muFromDivergence (fun x : ℚ => x) 1 ⟨10, 2, -1, 3, 2⟩ = 1 / 5 ∧
    distSq [(-1 : ℚ), 3] (1 / 5) = 8 / 5 := by
  refine ⟨⟨by norm_num, by norm_num, by norm_num, by simp, by norm_num, by simp, by norm_num⟩,
    by norm_num, by decide +kernel, by decide +kernel⟩

/-- Eigenvalues -1, 10: here the bound 3/2 of the minimum is reached. -/
example : DataOf [(-1 : ℝ), 10] ⟨101, 9, -1, 10, 2⟩ ∧ (1 : ℝ) / 10 ^ 12 < [(-1 : ℝ), 10].sum := by
  refine ⟨⟨by norm_num, by norm_num, by norm_num, by simp, by norm_num, by simp, by norm_num⟩,
    by norm_num⟩

end Verif.Divergence
