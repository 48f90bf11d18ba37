import Verif.Model.DenseFactor
import Verif.Spec.DenseFactor
import Mathlib.Algebra.BigOperators.Intervals
import Mathlib.Algebra.BigOperators.Ring.Finset
import Mathlib.Algebra.Order.Interval.Finset.Basic
import Mathlib.Tactic.Ring
import Mathlib.Tactic.FieldSimp
import Mathlib.Tactic.SplitIfs

/-!
# Dense substitutions and the dense LDLᵀ factorisation are correct
-/

namespace Verif.Dense

open Finset

variable {R : Type} [Field R]

theorem fsub_ge (L : Nat → Nat → R) (n : Nat) (y : Nat → R) (i : Nat) (h : n ≤ i) :
    fsub L n y i = y i := by
  induction n with
  | zero => rfl
  | succ n ih =>
    unfold fsub
    simp only
    rw [if_neg (by omega), ih (by omega)]

theorem fsub_mono (L : Nat → Nat → R) (y : Nat → R) {m n : Nat} (h : m ≤ n) (i : Nat) (hi : i < m) :
    fsub L n y i = fsub L m y i := by
  induction n with
  | zero => omega
  | succ n ih =>
    rcases Nat.lt_or_ge m (n + 1) with h' | h'
    · rw [fsub]
      simp only
      rw [if_neg (by omega), ih (by omega)]
    · have : m = n + 1 := by omega
      rw [this]

/-- Forward substitution solves `L x = y`. -/
theorem fsub_spec (L : Nat → Nat → R) (n : Nat) (y : Nat → R) (hL : ∀ r, r < n → L r r ≠ 0)
    (r : Nat) (hr : r < n) : ∑ c ∈ range (r + 1), L r c * fsub L n y c = y r := by
  have e : ∀ c, c < r + 1 → fsub L n y c = fsub L (r + 1) y c := fun c hc =>
    fsub_mono L y (by omega) c hc
  rw [sum_congr rfl fun c hc => by rw [e c (mem_range.1 hc)], sum_range_succ]
  have h1 : ∑ c ∈ range r, L r c * fsub L (r + 1) y c = ∑ c ∈ range r, L r c * fsub L r y c :=
    sum_congr rfl fun c hc => by rw [fsub_mono L y (show r ≤ r + 1 by omega) c (mem_range.1 hc)]
  have h2 : fsub L (r + 1) y r = (y r - ∑ c ∈ range r, L r c * fsub L r y c) / L r r := by
    rw [fsub]; simp
  rw [h1, h2, mul_div_cancel₀ _ (hL r hr)]
  ring

theorem fsub_full (L : Nat → Nat → R) (n : Nat) (y : Nat → R) (hL : ∀ r, r < n → L r r ≠ 0)
    (hu : ∀ r c, r < n → r < c → L r c = 0) (r : Nat) (hr : r < n) :
    ∑ c ∈ range n, L r c * fsub L n y c = y r := by
  rw [← fsub_spec L n y hL r hr]
  symm
  apply sum_subset (range_subset_range.2 (by omega))
  intro c _ hc
  rw [mem_range] at hc
  rw [hu r c hr (by omega), zero_mul]

theorem bsubAux_lt (L : Nat → Nat → R) (n t : Nat) (ht : t ≤ n) (y : Nat → R) (i : Nat)
    (h : i < n - t ∨ n ≤ i) : bsubAux L n t y i = y i := by
  induction t with
  | zero => rfl
  | succ t ih =>
    rw [bsubAux]
    simp only
    rw [if_neg (by omega), ih (by omega) (by omega)]

theorem bsubAux_mono (L : Nat → Nat → R) (n : Nat) (y : Nat → R) {s t : Nat} (h : s ≤ t) (ht : t ≤ n)
    (i : Nat) (hi : n - s ≤ i) (hin : i < n) : bsubAux L n t y i = bsubAux L n s y i := by
  induction t with
  | zero =>
    have : s = 0 := by omega
    subst this; rfl
  | succ t ih =>
    rcases Nat.lt_or_ge s (t + 1) with h' | h'
    · rw [bsubAux]
      simp only
      rw [if_neg (by omega), ih (by omega) (by omega)]
    · have : s = t + 1 := by omega
      rw [this]

theorem bsub_out (L : Nat → Nat → R) (n : Nat) (y : Nat → R) (i : Nat) (h : n ≤ i) :
    bsub L n y i = y i := bsubAux_lt L n n le_rfl y i (.inr h)

/-- Backward substitution solves `Lᵀ x = y`. -/
theorem bsub_spec (L : Nat → Nat → R) (n : Nat) (y : Nat → R) (hL : ∀ r, r < n → L r r ≠ 0)
    (r : Nat) (hr : r < n) : ∑ c ∈ Ico r n, L c r * bsub L n y c = y r := by
  unfold bsub
  have e : ∀ c, r ≤ c → c < n → bsubAux L n n y c = bsubAux L n (n - r) y c := fun c h1 h2 =>
    bsubAux_mono L n y (by omega) le_rfl c (by omega) h2
  have e' : ∑ c ∈ Ico r n, L c r * bsubAux L n n y c =
      ∑ c ∈ Ico r n, L c r * bsubAux L n (n - r) y c :=
    sum_congr rfl fun c hc => by
      rw [mem_Ico] at hc
      rw [e c hc.1 hc.2]
  rw [e', sum_eq_sum_Ico_succ_bot hr]
  have hr1 : n - r = (n - 1 - r) + 1 := by omega
  have h1 : ∑ c ∈ Ico (r + 1) n, L c r * bsubAux L n (n - r) y c =
      ∑ c ∈ Ico (r + 1) n, L c r * bsubAux L n (n - 1 - r) y c :=
    sum_congr rfl fun c hc => by
      rw [mem_Ico] at hc
      rw [bsubAux_mono L n y (show n - 1 - r ≤ n - r by omega) (by omega) c (by omega) hc.2]
  have h2 : bsubAux L n (n - r) y r =
      (y r - ∑ c ∈ Ico (r + 1) n, L c r * bsubAux L n (n - 1 - r) y c) / L r r := by
    rw [hr1, bsubAux]
    simp only
    rw [show n - 1 - (n - 1 - r) = r by omega]
    simp
  rw [h1, h2, mul_div_cancel₀ _ (hL r hr)]
  ring

theorem bsub_full (L : Nat → Nat → R) (n : Nat) (y : Nat → R) (hL : ∀ r, r < n → L r r ≠ 0)
    (hu : ∀ r c, r < n → r < c → L r c = 0) (r : Nat) (hr : r < n) :
    ∑ c ∈ range n, L c r * bsub L n y c = y r := by
  rw [← bsub_spec L n y hL r hr]
  symm
  apply sum_subset
  · intro c hc; rw [mem_Ico] at hc; rw [mem_range]; exact hc.2
  · intro c h1 h2
    rw [mem_range] at h1
    rw [mem_Ico] at h2
    rw [hu c r h1 (by omega), zero_mul]

/-- The substitutions only read the lower triangle. -/
theorem fsub_congr (L L' : Nat → Nat → R) (n : Nat) (h : ∀ r c, r < n → c ≤ r → L r c = L' r c)
    (y y' : Nat → R) (hy : ∀ r, r < n → y r = y' r) (i : Nat) (hi : i < n) :
    fsub L n y i = fsub L' n y' i := by
  induction n generalizing i with
  | zero => omega
  | succ n ih =>
    have ih' := ih (fun r c hr hc => h r c (by omega) hc) (fun r hr => hy r (by omega))
    rw [fsub, fsub]
    simp only
    split
    · rw [h n n (by omega) le_rfl, hy n (by omega)]
      congr 2
      refine sum_congr rfl fun c hc => ?_
      rw [mem_range] at hc
      rw [h n c (by omega) (by omega), ih' c hc]
    · exact ih' i (by omega)

theorem bsub_congr (L L' : Nat → Nat → R) (n : Nat) (h : ∀ r c, r < n → c ≤ r → L r c = L' r c)
    (y y' : Nat → R) (hy : ∀ r, r < n → y r = y' r) (i : Nat) (hi : i < n) :
    bsub L n y i = bsub L' n y' i := by
  have key : ∀ t, t ≤ n → ∀ i, i < n → bsubAux L n t y i = bsubAux L' n t y' i := by
    intro t
    induction t with
    | zero => intro _ i hi; exact hy i hi
    | succ t ih =>
      intro ht i hi
      rw [bsubAux, bsubAux]
      simp only
      split
      · rw [h (n - 1 - t) (n - 1 - t) (by omega) le_rfl, hy (n - 1 - t) (by omega)]
        congr 2
        refine sum_congr rfl fun c hc => ?_
        rw [mem_Ico] at hc
        rw [h c (n - 1 - t) hc.2 (by omega), ih (by omega) c hc.2]
      · exact ih (by omega) i hi
  exact key n le_rfl i hi

theorem unitLower_diag (m : Nat → Nat → R) (r : Nat) : unitLower m r r = 1 := by
  simp [unitLower]

theorem unitLower_upper (m : Nat → Nat → R) (r c : Nat) (h : r < c) : unitLower m r c = 0 := by
  unfold unitLower
  rw [if_neg (by omega), if_neg (by omega)]

section RLDLT

variable [LinearOrder R]

/-- Entry of the symmetric matrix given by a lower triangle. -/
def symm (m : Nat → Nat → R) (i j : Nat) : R := m (max i j) (min i j)

theorem pivotIndex_range (size k : Nat) (hk : k < size) (m : Nat → Nat → R) :
    k ≤ pivotIndex size k m ∧ pivotIndex size k m < size := by
  unfold pivotIndex
  have : ∀ (l : List Nat) (b : Nat), (∀ i ∈ l, k ≤ i ∧ i < size) → k ≤ b ∧ b < size →
      k ≤ l.foldl (fun best i => if |m best best| < |m i i| then i else best) b ∧
      l.foldl (fun best i => if |m best best| < |m i i| then i else best) b < size := by
    intro l
    induction l with
    | nil => intro b _ hb; exact hb
    | cons x l ih =>
      intro b hl hb
      rw [List.foldl_cons]
      apply ih _ (fun i hi => hl i (List.mem_cons_of_mem _ hi))
      split
      · exact hl x (by simp)
      · exact hb
  refine this _ _ ?_ ⟨le_rfl, hk⟩
  intro i hi
  rw [List.mem_range'_1] at hi
  omega

/-- The exchange of two indices permutes the symmetric matrix and the finished columns. -/
theorem pivotSwap_spec (size k p : Nat) (hkp : k ≤ p) (hp : p < size) (m : Nat → Nat → R) :
    (∀ i j, j < k → pivotSwap size k p m i j = m (Equiv.swap k p i) j) ∧
    (∀ i j, k ≤ j → j ≤ i → i < size →
      pivotSwap size k p m i j = symm m (Equiv.swap k p i) (Equiv.swap k p j)) := by
  by_cases hk : k = p
  · subst hk
    simp only [pivotSwap, if_true, Equiv.swap_self, Equiv.refl_apply]
    refine ⟨fun _ _ _ => trivial, fun i j _ hj _ => ?_⟩
    simp [symm, max_eq_left hj, min_eq_right hj]
  have hlt : k < p := by omega
  unfold pivotSwap
  rw [if_neg hk]
  constructor
  · intro i j hj
    have e1 : j ≠ k := by omega
    have e2 : j ≠ p := by omega
    have e3 : ¬ k < j := by omega
    rw [Equiv.swap_apply_def]
    simp only [e1, e2, e3, hj, if_true, if_false, false_and, and_false, ite_self]
    split_ifs <;> rfl
  · intro i j h1 h2 h3
    have e0 : ¬ j < k := by omega
    have e0' : ¬ p < k := by omega
    have ek : ¬ k < k := by omega
    have ep : ¬ p < p := by omega
    have epk : p ≠ k := by omega
    rcases lt_trichotomy i p with hi | rfl | hi
    · have f1 : ¬ p < i := by omega
      have f2 : i ≠ p := by omega
      have f3 : j ≠ p := by omega
      rcases Nat.eq_or_lt_of_le h1 with rfl | hj
      · -- j = k
        rcases Nat.eq_or_lt_of_le h2 with rfl | hik
        · simp [symm, epk, hk]
          intro h; omega
        · have g1 : i ≠ k := by omega
          have g2 : ¬ i < k := by omega
          rw [Equiv.swap_apply_of_ne_of_ne g1 f2, Equiv.swap_apply_left]
          simp [symm, hik, hi, g1, g2, f1, f2, hk, epk, ep, max_eq_right hi.le, min_eq_left hi.le]
      · have g1 : i ≠ k := by omega
        have g2 : j ≠ k := by omega
        rw [Equiv.swap_apply_of_ne_of_ne g1 f2, Equiv.swap_apply_of_ne_of_ne g2 f3]
        simp [symm, g1, g2, f1, f2, f3, e0, max_eq_left h2, min_eq_right h2]
    · rcases Nat.eq_or_lt_of_le h1 with rfl | hj
      · rw [Equiv.swap_apply_left, Equiv.swap_apply_right]
        simp [symm, epk, hk, max_eq_right hlt.le, min_eq_left hlt.le]
      · rcases Nat.eq_or_lt_of_le h2 with rfl | hji
        · rw [Equiv.swap_apply_right]
          simp [symm, epk, hk]
          intro h; omega
        · have g2 : j ≠ k := by omega
          have g3 : j ≠ i := by omega
          have g4 : ¬ i < j := by omega
          rw [Equiv.swap_apply_right, Equiv.swap_apply_of_ne_of_ne g2 g3]
          simp [symm, hj, hji, g2, g3, g4, epk, hk, max_eq_right hj.le, min_eq_left hj.le]
    · have f1 : i ≠ p := by omega
      have f2 : i ≠ k := by omega
      have f3 : ¬ i < p := by omega
      rw [Equiv.swap_apply_of_ne_of_ne f2 f1]
      rcases Nat.eq_or_lt_of_le h1 with rfl | hj
      · rw [Equiv.swap_apply_left]
        simp [symm, hi, h3, f1, f2, f3, e0', max_eq_left hi.le, min_eq_right hi.le]
      · have g2 : j ≠ k := by omega
        by_cases hjp : j = p
        · subst hjp
          rw [Equiv.swap_apply_right]
          simp [symm, hi, h3, f1, f2, f3, g2, max_eq_left (show k ≤ i by omega),
            min_eq_right (show k ≤ i by omega)]
        · rw [Equiv.swap_apply_of_ne_of_ne g2 hjp]
          simp [symm, hi, h3, f1, f2, f3, g2, hjp, e0, max_eq_left h2, min_eq_right h2]

theorem permOf_concat (tr : List Nat) (p : Nat) :
    permOf (tr ++ [p]) = permOf tr * Equiv.swap tr.length p := by
  unfold permOf
  rw [List.zipIdx_append]
  simp

/-- Invariant of the factorisation loop, for pivots that were all accepted. -/
structure LdltInv (size : Nat) (A : Nat → Nat → R) (k : Nat) (s : Ldlt R) : Prop where
  len : s.tr.length = k
  ret : s.ret = !s.reg
  perm : ∀ i, i < size → permOf s.tr i < size
  out : ∀ i, size ≤ i → permOf s.tr i = i
  done : s.reg = false → ∀ i j, j < k → j ≤ i → i < size →
    ∑ l ∈ range (j + 1), unitLower s.mat i l * s.mat l l * unitLower s.mat j l =
      symm A (permOf s.tr i) (permOf s.tr j)
  todo : ∀ i j, k ≤ j → j ≤ i → i < size →
    s.mat i j = symm A (permOf s.tr i) (permOf s.tr j)
  diag : ∀ l, l < k → s.mat l l ≠ 0

theorem eps_ne [IsStrictOrderedRing R] : (eps : R) ≠ 0 := by
  unfold eps
  norm_num

theorem eps_pos [IsStrictOrderedRing R] : (0 : R) < eps := by
  unfold eps
  norm_num

theorem symm_comm (A : Nat → Nat → R) (i j : Nat) : symm A i j = symm A j i := by
  simp [symm, max_comm, min_comm]

theorem LdltInv.step [IsStrictOrderedRing R] {size : Nat} {A : Nat → Nat → R} {k : Nat}
    {s : Ldlt R} (h : LdltInv size A k s) (hk : k < size) :
    LdltInv size A (k + 1) (ldltStep size k s) := by
  obtain ⟨hp1, hp2⟩ := pivotIndex_range size k hk s.mat
  obtain ⟨q1, q2⟩ := pivotSwap_spec size k (pivotIndex size k s.mat) hp1 hp2 s.mat
  have hperm : permOf (ldltStep size k s).tr =
      permOf s.tr * Equiv.swap k (pivotIndex size k s.mat) := by
    rw [← h.len]; exact permOf_concat _ _
  have hlen : (ldltStep size k s).tr.length = k + 1 := by
    simp [ldltStep, h.len]
  have hmat : (ldltStep size k s).mat = eliminateCol size k
      (pivotSwap size k (pivotIndex size k s.mat) s.mat)
      (pivotReg (schurPivot k (pivotSwap size k (pivotIndex size k s.mat) s.mat))) := rfl
  have hreg : (ldltStep size k s).reg = (s.reg || !decide (eps <
      |schurPivot k (pivotSwap size k (pivotIndex size k s.mat) s.mat)|)) := rfl
  have hret : (ldltStep size k s).ret = (s.ret && decide (eps <
      |schurPivot k (pivotSwap size k (pivotIndex size k s.mat) s.mat)|)) := rfl
  generalize pivotIndex size k s.mat = p at *
  generalize pivotSwap size k p s.mat = m at *
  generalize hτ : Equiv.swap k p = τ at *
  have τlt : ∀ i, i < k → τ i = i := fun i hi => by
    rw [← hτ]; exact Equiv.swap_apply_of_ne_of_ne (by omega) (by omega)
  have τge : ∀ i, k ≤ i → k ≤ τ i := fun i hi => by
    rw [← hτ, Equiv.swap_apply_def]; split_ifs <;> omega
  have τsize : ∀ i, i < size → τ i < size := fun i hi => by
    rw [← hτ, Equiv.swap_apply_def]; split_ifs <;> omega
  have hU : ∀ i l, l < k → unitLower m i l = unitLower s.mat (τ i) l := by
    intro i l hl
    unfold unitLower
    by_cases hi : i < k
    · rw [τlt i hi]
      split_ifs
      · rw [q1 i l hl, τlt i hi]
      all_goals rfl
    · have := τge i (by omega)
      rw [if_pos (by omega), if_pos (by omega), q1 i l hl]
  have hD : ∀ l, l < k → m l l = s.mat l l := fun l hl => by rw [q1 l l hl, τlt l hl]
  -- after the exchange
  have S1 : s.reg = false → ∀ i j, j < k → j ≤ i → i < size →
      ∑ l ∈ range (j + 1), unitLower m i l * m l l * unitLower m j l =
        symm A (permOf s.tr (τ i)) (permOf s.tr (τ j)) := by
    intro hr i j hj hji hi
    rw [τlt j hj, ← h.done hr (τ i) j hj
      (by
        by_cases hik : i < k
        · rw [τlt i hik]; exact hji
        · have := τge i (by omega); omega) (τsize i hi)]
    refine sum_congr rfl fun l hl => ?_
    rw [mem_range] at hl
    rw [hU i l (by omega), hU j l (by omega), hD l (by omega), τlt j hj]
  have S2 : ∀ i j, k ≤ j → j ≤ i → i < size →
      m i j = symm A (permOf s.tr (τ i)) (permOf s.tr (τ j)) := by
    intro i j hj hji hi
    rw [q2 i j hj hji hi]
    have hi' := τsize i hi
    have hj' := τsize j (by omega)
    have hgi := τge i (by omega)
    have hgj := τge j hj
    rcases le_total (τ j) (τ i) with hle | hle
    · rw [symm, max_eq_left hle, min_eq_right hle, h.todo _ _ hgj hle hi']
    · rw [symm, max_eq_right hle, min_eq_left hle, h.todo _ _ hgi hle hj', symm_comm]
  have hpiv : pivotReg (schurPivot k m) ≠ 0 := by
    unfold pivotReg
    have hpos := eps_pos (R := R)
    split_ifs with h1 h2
    · intro h0; rw [h0, abs_zero] at h1; exact absurd h1 (not_lt.2 hpos.le)
    · exact neg_ne_zero.2 eps_ne
    · exact eps_ne
  have hE : ∀ i j, j ≠ k → eliminateCol size k m (pivotReg (schurPivot k m)) i j = m i j := by
    intro i j hj
    unfold eliminateCol
    rw [if_neg hj]
  have hEU : ∀ i l, l < k → unitLower (eliminateCol size k m (pivotReg (schurPivot k m))) i l =
      unitLower m i l := by
    intro i l hl
    unfold unitLower
    rw [hE i l (by omega)]
  constructor
  · exact hlen
  · rw [hret, hreg, h.ret]
    cases s.reg <;> simp
  · intro i hi
    rw [hperm]
    exact h.perm _ (τsize i hi)
  · intro i hi
    rw [hperm, Equiv.Perm.mul_apply, ← hτ, Equiv.swap_apply_of_ne_of_ne (by omega) (by omega)]
    exact h.out i hi
  · rw [hreg, hmat, hperm]
    intro hr i j hj hji hi
    simp only [Bool.or_eq_false_iff, Bool.not_eq_false', decide_eq_true_eq] at hr
    simp only [Equiv.Perm.mul_apply]
    by_cases hjk : j < k
    · rw [← S1 hr.1 i j hjk hji hi]
      refine sum_congr rfl fun l hl => ?_
      rw [mem_range] at hl
      rw [hEU i l (by omega), hEU j l (by omega), hE l l (by omega)]
    · have : j = k := by omega
      subst this
      rw [← S2 i j le_rfl hji hi, sum_range_succ]
      have e1 : ∑ l ∈ range j, unitLower (eliminateCol size j m (pivotReg (schurPivot j m))) i l *
            eliminateCol size j m (pivotReg (schurPivot j m)) l l *
            unitLower (eliminateCol size j m (pivotReg (schurPivot j m))) j l =
          ∑ l ∈ range j, m i l * (m l l * m j l) := by
        refine sum_congr rfl fun l hl => ?_
        rw [mem_range] at hl
        rw [hEU i l hl, hEU j l hl, hE l l (by omega)]
        unfold unitLower
        rw [if_pos (by omega), if_pos hl]
        ring
      rw [e1, unitLower_diag]
      have e2 : eliminateCol size j m (pivotReg (schurPivot j m)) j j = pivotReg (schurPivot j m) := by
        simp [eliminateCol]
      rw [e2]
      by_cases hij : i = j
      · subst hij
        rw [unitLower_diag]
        unfold pivotReg
        rw [if_pos hr.2]
        unfold schurPivot
        ring
      · have e3 : unitLower (eliminateCol size j m (pivotReg (schurPivot j m))) i j =
            (m i j - ∑ l ∈ range j, m i l * (m l l * m j l)) / pivotReg (schurPivot j m) := by
          unfold unitLower
          rw [if_pos (by omega)]
          unfold eliminateCol
          rw [if_pos rfl, if_neg hij, if_pos ⟨by omega, hi⟩]
        rw [e3, div_mul_cancel₀ _ hpiv]
        ring
  · rw [hmat, hperm]
    intro i j hj hji hi
    rw [hE i j (by omega)]
    exact S2 i j (by omega) hji hi
  · rw [hmat]
    intro l hl
    by_cases hlk : l = k
    · subst hlk
      simpa [eliminateCol] using hpiv
    · rw [hE l l hlk, hD l (by omega)]
      exact h.diag l (by omega)

theorem ldltLoop_inv [IsStrictOrderedRing R] (size : Nat) (A : Nat → Nat → R) :
    ∀ k, k ≤ size → LdltInv size A k (ldltLoop size A k)
  | 0, _ => by
    constructor
    · rfl
    · rfl
    · intro i hi; simpa [ldltLoop, permOf] using hi
    · intro i _; simp [ldltLoop, permOf]
    · intro _ i j hj; omega
    · intro i j _ hji _
      simp [ldltLoop, permOf, symm, max_eq_left hji, min_eq_right hji]
    · intro l hl; omega
  | k + 1, hk => (ldltLoop_inv size A k (by omega)).step (by omega)

/-- The factorisation `P A Pᵀ = L D Lᵀ`. -/
theorem ldlt_spec [IsStrictOrderedRing R] {size : Nat} {A : Nat → Nat → R} {s : Ldlt R}
    (h : ldlt size A = .ok s) :
    0 < size ∧ (∀ i, i < size → permOf s.tr i < size) ∧ (∀ i, size ≤ i → permOf s.tr i = i) ∧
    (∀ l, l < size → s.mat l l ≠ 0) ∧
    (s.reg = false → ∀ i j, j ≤ i → i < size →
      ∑ l ∈ range size, unitLower s.mat i l * s.mat l l * unitLower s.mat j l =
        symm A (permOf s.tr i) (permOf s.tr j)) ∧
    (2 ≤ size → s.ret = !s.reg) := by
  match size, h with
  | 0, h => simp [ldlt] at h
  | 1, h =>
    simp only [ldlt, Outcome.ok.injEq] at h
    subst h
    have hp : permOf [0] = 1 := by simp [permOf]; rfl
    refine ⟨by omega, ?_, ?_, ?_, ?_, by omega⟩
    · intro i hi; simpa [hp] using hi
    · intro i hi; simp [hp]
    · intro l hl
      have : l = 0 := by omega
      subst this
      simp only [true_and]
      split_ifs with h1 h2
      · exact neg_ne_zero.2 eps_ne
      · exact eps_ne
      · intro h0
        simp only [decide_eq_true_eq, not_lt, h0, abs_zero] at h1
        exact absurd h1 (not_le.2 eps_pos)
    · intro hr i j hji hi
      have hi0 : i = 0 := by omega
      have hj0 : j = 0 := by omega
      subst hi0; subst hj0
      simp only at hr
      simp [hp, unitLower, symm, hr]
  | n + 2, h =>
    simp only [ldlt, Outcome.ok.injEq] at h
    subst h
    have I := ldltLoop_inv (n + 2) A (n + 2) le_rfl
    refine ⟨by omega, I.perm, I.out, I.diag, ?_, fun _ => I.ret⟩
    intro hr i j hji hi
    rw [← I.done hr i j (by omega) hji hi]
    symm
    apply sum_subset (range_subset_range.2 (by omega))
    intro l _ hl
    rw [mem_range] at hl
    rw [unitLower_upper _ j l (by omega), mul_zero]

end RLDLT

end Verif.Dense
