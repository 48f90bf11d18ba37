import Verif.Spec.ColumnFactor
import Mathlib.Algebra.BigOperators.Ring.Finset
import Mathlib.Algebra.BigOperators.Fin
import Mathlib.Algebra.Order.BigOperators.Group.Finset
import Mathlib.Tactic.Ring
import Mathlib.Tactic.Linarith
import Mathlib.Tactic.FieldSimp
import Mathlib.Tactic.Positivity

/-!
# Pivots of a positive definite matrix
-/

namespace Verif.Sup

open Finset Spec

variable {R : Type} [Field R]

/-- Back substitution: a vector orthogonal to the first `c` columns of a lower triangular matrix. -/
theorem exists_orth (L : Nat → Nat → R) (c : Nat) (hup : ∀ r q, r < q → L r q = 0)
    (hd : ∀ q, q < c → L q q ≠ 0) :
    ∀ m, m ≤ c → ∃ x : Nat → R, x c = 1 ∧ (∀ r, c < r → x r = 0) ∧
      ∀ q, c - m ≤ q → q < c → ∑ r ∈ range (c + 1), L r q * x r = 0
  | 0, _ => ⟨fun r => if r = c then 1 else 0, by simp, fun r hr => by simp; omega, fun q h1 h2 => by omega⟩
  | m + 1, hm => by
    obtain ⟨x, h1, h2, h3⟩ := exists_orth L c hup hd m (by omega)
    set p := c - (m + 1) with hp
    have hpc : p < c := by omega
    have hmem : p ∈ range (c + 1) := mem_range.2 (by omega)
    refine ⟨fun r => if r = p then x p - (∑ r ∈ range (c + 1), L r p * x r) / L p p else x r, ?_, ?_, ?_⟩
    · simp only; rw [if_neg (by omega)]; exact h1
    · intro r hr
      simp only; rw [if_neg (by omega)]; exact h2 r hr
    · intro q hq1 hq2
      have split : ∑ r ∈ range (c + 1),
          L r q * (if r = p then x p - (∑ r ∈ range (c + 1), L r p * x r) / L p p else x r) =
          ∑ r ∈ range (c + 1), L r q * x r - L p q * ((∑ r ∈ range (c + 1), L r p * x r) / L p p) := by
        rw [← add_sum_erase _ _ hmem, ← add_sum_erase (range (c + 1)) (fun r => L r q * x r) hmem]
        simp only [if_true]
        have : ∑ r ∈ (range (c + 1)).erase p,
            L r q * (if r = p then x p - (∑ r ∈ range (c + 1), L r p * x r) / L p p else x r) =
            ∑ r ∈ (range (c + 1)).erase p, L r q * x r := by
          refine sum_congr rfl fun r hr => ?_
          rw [if_neg (ne_of_mem_erase hr)]
        rw [this]
        ring
      rw [split]
      by_cases hqp : q = p
      · subst hqp
        rw [mul_div_cancel₀ _ (hd _ hq2), sub_self]
      · rw [hup p q (by omega), zero_mul, sub_zero]
        exact h3 q (by omega) hq2

/-- The next pivot of a positive definite matrix is positive.  `L` holds the first `c` columns of a factor. -/
theorem pivot_pos [LinearOrder R] [IsStrictOrderedRing R] {N c : Nat} (hc : c < N) {M L : Nat → Nat → R}
    (hpd : PosDef N M) (hsym : ∀ i j, i < N → j < N → M i j = M j i)
    (hup : ∀ r q, r < q → L r q = 0) (hd : ∀ q, q < c → L q q ≠ 0)
    (hL : ∀ r q, q < c → q ≤ r → r < N → M r q = ∑ t ∈ range c, L r t * L q t) :
    0 < M c c - ∑ t ∈ range c, L c t * L c t := by
  obtain ⟨x, h1, h2, h3⟩ := exists_orth L c hup hd c le_rfl
  have hpos := hpd x ⟨c, hc, by rw [h1]; exact one_ne_zero⟩
  have cut : ∀ f : Nat → R, (∀ r, c < r → f r = 0) → ∑ i ∈ range N, f i = ∑ i ∈ range (c + 1), f i := by
    intro f hf
    symm
    apply sum_subset (fun a ha => mem_range.2 (by have := mem_range.1 ha; omega))
    intro a _ ha
    apply hf
    have : ¬ a < c + 1 := fun h => ha (mem_range.2 h)
    omega
  rw [cut _ (fun r hr => by simp [h2 r hr])] at hpos
  have e1 : ∑ i ∈ range (c + 1), ∑ j ∈ range N, x i * M i j * x j =
      ∑ i ∈ range (c + 1), ∑ j ∈ range (c + 1), x i * M i j * x j :=
    sum_congr rfl fun i _ => cut _ (fun r hr => by simp [h2 r hr])
  rw [e1] at hpos
  -- all entries but the last are those of the product
  have hM : ∀ i j, i < c + 1 → j < c + 1 → M i j = (∑ t ∈ range c, L i t * L j t) +
      (if i = c ∧ j = c then M c c - ∑ t ∈ range c, L c t * L c t else 0) := by
    intro i j hi hj
    by_cases hcc : i = c ∧ j = c
    · obtain ⟨rfl, rfl⟩ := hcc
      simp
    · rw [if_neg hcc, add_zero]
      rcases Nat.lt_or_ge j i with hji | hij
      · exact hL i j (by omega) (by omega) (by omega)
      · rcases Nat.lt_or_ge i c with hic | hic
        · rw [hsym i j (by omega) (by omega), hL j i hic hij (by omega)]
          exact sum_congr rfl fun t _ => mul_comm _ _
        · exfalso; omega
  have e2 : ∑ i ∈ range (c + 1), ∑ j ∈ range (c + 1), x i * M i j * x j =
      ∑ t ∈ range c, (∑ i ∈ range (c + 1), L i t * x i) * (∑ j ∈ range (c + 1), L j t * x j) +
      (M c c - ∑ t ∈ range c, L c t * L c t) := by
    have step : ∀ i ∈ range (c + 1), ∀ j ∈ range (c + 1), x i * M i j * x j =
        (∑ t ∈ range c, (L i t * x i) * (L j t * x j)) +
        (if i = c then if j = c then M c c - ∑ t ∈ range c, L c t * L c t else 0 else 0) := by
      intro i hi j hj
      rw [hM i j (mem_range.1 hi) (mem_range.1 hj), mul_add, add_mul, mul_sum, sum_mul]
      congr 1
      · exact sum_congr rfl fun t _ => by ring
      · by_cases hi' : i = c
        · subst hi'
          by_cases hj' : j = i
          · subst hj'; simp [h1]
          · simp [hj']
        · simp [hi']
    rw [sum_congr rfl fun i hi => sum_congr rfl (step i hi)]
    simp only [sum_add_distrib]
    congr 1
    · simp only [sum_mul_sum]
      rw [sum_congr rfl fun i _ => sum_comm, sum_comm]
    · rw [sum_eq_single c (fun i _ hi => by simp [hi]) (by simp)]
      simp
  rw [e2, sum_eq_zero, zero_add] at hpos
  · exact hpos
  · intro t ht
    rw [h3 t (by omega) (mem_range.1 ht), zero_mul]

/-- The square-root recurrence factors a positive definite matrix. -/
theorem chol_of_recurrence [LinearOrder R] [IsStrictOrderedRing R] {N : Nat} {M A : Nat → Nat → R}
    {sqrt : R → R} (hs : SqrtOK sqrt) (hpd : PosDef N M)
    (hsym : ∀ i j, i < N → j < N → M i j = M j i)
    (hA : ∀ r c, c ≤ r → r < N → A r c = (M r c - ∑ q ∈ range c, A r q * A c q) *
      (1 / sqrt (M c c - ∑ q ∈ range c, A c q * A c q))) :
    ∀ c, c < N → 0 < A c c ∧ ∀ r, c ≤ r → r < N → ∑ q ∈ range (c + 1), A r q * A c q = M r c := by
  intro c
  induction c using Nat.strong_induction_on with
  | _ c ih =>
    intro hc
    let L : Nat → Nat → R := fun r q => if q ≤ r then A r q else 0
    have hLr : ∀ r q, q ≤ r → L r q = A r q := fun r q h => if_pos h
    have hL0 : ∀ r q, r < q → L r q = 0 := fun r q h => if_neg (by omega)
    have trunc : ∀ r q, q < c → q ≤ r → ∑ t ∈ range c, L r t * L q t =
        ∑ t ∈ range (q + 1), A r t * A q t := by
      intro r q hq hqr
      symm
      rw [← sum_subset (s₁ := range (q + 1)) (s₂ := range c)
        (fun a ha => mem_range.2 (by have := mem_range.1 ha; omega))]
      · refine sum_congr rfl fun t ht => ?_
        have := mem_range.1 ht
        rw [hLr r t (by omega), hLr q t (by omega)]
      · intro t _ ht
        have : ¬ t < q + 1 := fun h => ht (mem_range.2 h)
        rw [hL0 q t (by omega), mul_zero]
    have hpiv := pivot_pos (L := L) hc hpd hsym hL0
      (fun q hq => by rw [hLr q q le_rfl]; exact ne_of_gt (ih q hq (by omega)).1)
      (fun r q hq hqr hr => by
        rw [trunc r q hq hqr]; exact ((ih q hq (by omega)).2 r hqr hr).symm)
    have eL : ∑ t ∈ range c, L c t * L c t = ∑ q ∈ range c, A c q * A c q :=
      sum_congr rfl fun t ht => by
        have := mem_range.1 ht
        rw [hLr c t (by omega)]
    rw [eL] at hpiv
    obtain ⟨s1, s2⟩ := hs _ hpiv
    set d := M c c - ∑ q ∈ range c, A c q * A c q with hd
    have hAcc : A c c = sqrt d := by
      rw [hA c c le_rfl hc, ← hd]
      nth_rewrite 1 [← s2]
      rw [mul_assoc, mul_one_div_cancel (ne_of_gt s1), mul_one]
    refine ⟨by rw [hAcc]; exact s1, ?_⟩
    intro r hcr hr
    rw [sum_range_succ, hAcc, hA r c hcr hr, ← hd, mul_assoc, one_div_mul_cancel (ne_of_gt s1), mul_one]
    ring

/-- Back substitution: any vector on the rows from `c` on extends to one orthogonal to the first `c` columns. -/
theorem exists_orth_ext (L : Nat → Nat → R) (N c : Nat) (hcN : c ≤ N) (hup : ∀ r q, r < q → q < c → L r q = 0)
    (hd : ∀ q, q < c → L q q ≠ 0) (z : Nat → R) :
    ∀ m, m ≤ c → ∃ x : Nat → R, (∀ r, c ≤ r → x r = z r) ∧
      ∀ q, c - m ≤ q → q < c → ∑ r ∈ range N, L r q * x r = 0
  | 0, _ => ⟨z, fun _ _ => rfl, fun q h1 h2 => by omega⟩
  | m + 1, hm => by
    obtain ⟨x, h2, h3⟩ := exists_orth_ext L N c hcN hup hd z m (by omega)
    set p := c - (m + 1) with hp
    have hpc : p < c := by omega
    have hmem : p ∈ range N := mem_range.2 (by omega)
    refine ⟨fun r => if r = p then x p - (∑ r ∈ range N, L r p * x r) / L p p else x r, ?_, ?_⟩
    · intro r hr
      simp only; rw [if_neg (by omega)]; exact h2 r hr
    · intro q hq1 hq2
      have split : ∑ r ∈ range N,
          L r q * (if r = p then x p - (∑ r ∈ range N, L r p * x r) / L p p else x r) =
          ∑ r ∈ range N, L r q * x r - L p q * ((∑ r ∈ range N, L r p * x r) / L p p) := by
        rw [← add_sum_erase _ _ hmem, ← add_sum_erase (range N) (fun r => L r q * x r) hmem]
        simp only [if_true]
        have : ∑ r ∈ (range N).erase p,
            L r q * (if r = p then x p - (∑ r ∈ range N, L r p * x r) / L p p else x r) =
            ∑ r ∈ (range N).erase p, L r q * x r := by
          refine sum_congr rfl fun r hr => ?_
          rw [if_neg (ne_of_mem_erase hr)]
        rw [this]
        ring
      rw [split]
      by_cases hqp : q = p
      · subst hqp
        rw [mul_div_cancel₀ _ (hd _ hq2), sub_self]
      · rw [hup p q (by omega) hq2, zero_mul, sub_zero]
        exact h3 q (by omega) hq2

/-- The Schur complement of a positive definite matrix is positive definite. -/
theorem schur_pos [LinearOrder R] {N c : Nat} (hcN : c ≤ N) {M L A : Nat → Nat → R}
    (hpd : PosDef N M) (hsym : ∀ i j, i < N → j < N → M i j = M j i)
    (hAsym : ∀ i j, i < N → j < N → A i j = A j i)
    (hup : ∀ r q, r < q → q < c → L r q = 0) (hd : ∀ q, q < c → L q q ≠ 0)
    (hL : ∀ r q, q < c → q ≤ r → r < N → M r q = ∑ t ∈ range c, L r t * L q t)
    (hA : ∀ r q, c ≤ q → q ≤ r → r < N → M r q = A r q + ∑ t ∈ range c, L r t * L q t)
    (z : Nat → R) (hz : ∀ r, r < c → z r = 0) (hz' : ∃ i, i < N ∧ z i ≠ 0) :
    0 < ∑ i ∈ range N, ∑ j ∈ range N, z i * A i j * z j := by
  obtain ⟨x, h2, h3⟩ := exists_orth_ext L N c hcN hup hd z c le_rfl
  obtain ⟨i0, hi0, hzi⟩ := hz'
  have hi0c : c ≤ i0 := by
    by_contra h
    exact hzi (hz i0 (by omega))
  have hpos := hpd x ⟨i0, hi0, by rw [h2 i0 hi0c]; exact hzi⟩
  have hM : ∀ i j, i < N → j < N → M i j = (∑ t ∈ range c, L i t * L j t) +
      (if c ≤ i ∧ c ≤ j then A i j else 0) := by
    have low : ∀ i j, j ≤ i → i < N → M i j = (∑ t ∈ range c, L i t * L j t) +
        (if c ≤ i ∧ c ≤ j then A i j else 0) := by
      intro i j hji hi
      by_cases hj : c ≤ j
      · rw [if_pos ⟨by omega, hj⟩, hA i j hj hji hi, add_comm]
      · rw [if_neg (fun h => hj h.2), add_zero, hL i j (by omega) hji hi]
    intro i j hi hj
    rcases Nat.le_total j i with h | h
    · exact low i j h hi
    · rw [hsym i j hi hj, low j i h hj, hAsym i j hi hj]
      congr 1
      · exact sum_congr rfl fun t _ => mul_comm _ _
      · simp only [and_comm]
  have e2 : ∑ i ∈ range N, ∑ j ∈ range N, x i * M i j * x j =
      ∑ t ∈ range c, (∑ i ∈ range N, L i t * x i) * (∑ j ∈ range N, L j t * x j) +
      ∑ i ∈ range N, ∑ j ∈ range N, z i * A i j * z j := by
    have step : ∀ i ∈ range N, ∀ j ∈ range N, x i * M i j * x j =
        (∑ t ∈ range c, (L i t * x i) * (L j t * x j)) + z i * A i j * z j := by
      intro i hi j hj
      rw [hM i j (mem_range.1 hi) (mem_range.1 hj), mul_add, add_mul, mul_sum, sum_mul]
      congr 1
      · exact sum_congr rfl fun t _ => by ring
      · by_cases hi' : c ≤ i
        · by_cases hj' : c ≤ j
          · rw [if_pos ⟨hi', hj'⟩, h2 i hi', h2 j hj']
          · rw [if_neg (fun h => hj' h.2), hz j (by omega)]; ring
        · rw [if_neg (fun h => hi' h.1), hz i (by omega)]; ring
    rw [sum_congr rfl fun i hi => sum_congr rfl (step i hi)]
    simp only [sum_add_distrib]
    congr 1
    simp only [sum_mul_sum]
    rw [sum_congr rfl fun i _ => sum_comm, sum_comm]
  rw [e2, sum_eq_zero, zero_add] at hpos
  · exact hpos
  · intro t ht
    rw [h3 t (by omega) (mem_range.1 ht), zero_mul]

/-- A matrix with a triangular factor is positive definite. -/
theorem posDef_of_factor [LinearOrder R] [IsStrictOrderedRing R] {N : Nat} {M L : Nat → Nat → R}
    (hup : ∀ r q, r < q → q < N → L r q = 0) (hd : ∀ q, q < N → L q q ≠ 0)
    (hM : ∀ i j, i < N → j < N → M i j = ∑ t ∈ range N, L i t * L j t) : PosDef N M := by
  rintro x ⟨i0, hi0, hx⟩
  have e : ∑ i ∈ range N, ∑ j ∈ range N, x i * M i j * x j =
      ∑ t ∈ range N, (∑ i ∈ range N, L i t * x i) * (∑ j ∈ range N, L j t * x j) := by
    have step : ∀ i ∈ range N, ∀ j ∈ range N, x i * M i j * x j =
        ∑ t ∈ range N, (L i t * x i) * (L j t * x j) := by
      intro i hi j hj
      rw [hM i j (mem_range.1 hi) (mem_range.1 hj), mul_sum, sum_mul]
      exact sum_congr rfl fun t _ => by ring
    rw [sum_congr rfl fun i hi => sum_congr rfl (step i hi)]
    simp only [sum_mul_sum]
    rw [sum_congr rfl fun i _ => sum_comm, sum_comm]
  rw [e]
  -- the last index at which x is not zero
  classical
  have hex : ∃ m, m < N ∧ x m ≠ 0 ∧ ∀ r, m < r → r < N → x r = 0 := by
    let s := (range N).filter fun i => x i ≠ 0
    have hs : s.Nonempty := ⟨i0, mem_filter.2 ⟨mem_range.2 hi0, hx⟩⟩
    have hm := mem_filter.1 (s.max'_mem hs)
    refine ⟨s.max' hs, mem_range.1 hm.1, hm.2, ?_⟩
    intro r h1 h2
    by_contra hne
    have := s.le_max' r (mem_filter.2 ⟨mem_range.2 h2, hne⟩)
    omega
  obtain ⟨m, hmN, hm, hmax⟩ := hex
  have hone : ∑ i ∈ range N, L i m * x i = L m m * x m := by
    apply sum_eq_single_of_mem m (mem_range.2 hmN)
    intro i hi him
    have := mem_range.1 hi
    rcases Nat.lt_or_gt_of_ne him with h | h
    · rw [hup i m h hmN, zero_mul]
    · rw [hmax i h this, mul_zero]
  apply sum_pos' (fun t _ => mul_self_nonneg _)
  refine ⟨m, mem_range.2 hmN, ?_⟩
  rw [hone]
  exact mul_self_pos.2 (mul_ne_zero (hd m hmN) hm)

/-- The entries of the Cholesky factor, column by column. -/
def cholEntry [LinearOrder R] (sqrt : R → R) (M : Nat → Nat → R) (r c : Nat) : R :=
  (M r c - ∑ q : Fin c, cholEntry sqrt M r q * cholEntry sqrt M c q) *
    (1 / sqrt (M c c - ∑ q : Fin c, cholEntry sqrt M c q * cholEntry sqrt M c q))
termination_by c
decreasing_by all_goals exact q.2

/-- A symmetric positive definite matrix has a Cholesky factor. -/
theorem exists_chol [LinearOrder R] [IsStrictOrderedRing R] {N : Nat} {M : Nat → Nat → R}
    {sqrt : R → R} (hs : SqrtOK sqrt) (hpd : PosDef N M)
    (hsym : ∀ i j, i < N → j < N → M i j = M j i) :
    ∃ L : Nat → Nat → R, (∀ r, r < N → 0 < L r r) ∧ (∀ r c, r < c → L r c = 0) ∧
      ∀ r c, r < N → c ≤ r → ∑ k ∈ range N, L r k * L c k = M r c := by
  have key := chol_of_recurrence (A := cholEntry sqrt M) hs hpd hsym (by
    intro r c _ _
    rw [cholEntry, Fin.sum_univ_eq_sum_range (fun q => cholEntry sqrt M r q * cholEntry sqrt M c q),
      Fin.sum_univ_eq_sum_range (fun q => cholEntry sqrt M c q * cholEntry sqrt M c q)])
  refine ⟨fun r c => if c ≤ r then cholEntry sqrt M r c else 0, fun r hr => ?_, fun r c h => ?_, ?_⟩
  · simp only [le_refl, if_true]; exact (key r hr).1
  · exact if_neg (by omega)
  · intro r c hr hc
    rw [← (key c (by omega)).2 r hc hr]
    symm
    rw [← sum_subset (s₁ := range (c + 1)) (s₂ := range N)
      (fun a ha => mem_range.2 (by have := mem_range.1 ha; omega))]
    · refine sum_congr rfl fun t ht => ?_
      have := mem_range.1 ht
      simp only
      rw [if_pos (by omega), if_pos (by omega)]
    · intro t _ ht
      have : ¬ t < c + 1 := fun h => ht (mem_range.2 h)
      simp only
      rw [if_neg (show ¬ t ≤ c by omega), mul_zero]

end Verif.Sup
