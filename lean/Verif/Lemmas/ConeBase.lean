import Verif.Spec.ConeBase
import Verif.Lemmas.MatlabSym
import Mathlib.Data.List.Range
import Mathlib.Algebra.BigOperators.Ring.Finset
import Mathlib.Data.Finset.Dedup
import Mathlib.Tactic.Ring
import Mathlib.Tactic.Linarith

/-!
# Lemmas about the class `coneBase`
-/

namespace Verif.ConeBase

open Verif.Matlab (numVar lowerUpper assign mirror SymRow)
open Spec
open scoped BigOperators

/-! ### The layout -/

theorem numVar_eq (s : List Nat) : numVar s = (s.map fun n => n * n).sum := by
  induction s with
  | nil => rfl
  | cons n ns ih => simp [numVar, ih]

theorem numVars_eq (K : Cone) : numVars K = dim K := by
  unfold numVars dim
  rw [numVar_eq]
  congr 2
  exact List.map_congr_left fun n _ => (pow_two n).symm

theorem offsetS_eq (K : Cone) : offsetS K = before K := rfl

theorem anyPos_false {l : List Nat} (h : anyPos l = false) : ∀ n ∈ l, n = 0 := by
  intro n hn
  unfold anyPos at h
  rw [List.any_eq_false] at h
  simpa using h n hn

theorem anyPos_true {l : List Nat} (h : anyPos l = true) : ∃ n ∈ l, n ≠ 0 := by
  unfold anyPos at h
  rw [List.any_eq_true] at h
  obtain ⟨n, hn, h⟩ := h
  exact ⟨n, hn, by simpa using h⟩

theorem sum_zero {l : List Nat} (h : ∀ n ∈ l, n = 0) : l.sum = 0 := List.sum_eq_zero h

theorem anyPos_iff (l : List Nat) : anyPos l = true ↔ 0 < l.sum := by
  constructor
  · intro h
    obtain ⟨n, hn, h0⟩ := anyPos_true h
    have := List.single_le_sum (l := l) (by simp) n hn
    omega
  · intro h
    by_contra hc
    have := sum_zero (anyPos_false (by simpa using hc))
    omega

theorem startsFrom_length (off : Nat) (l : List Nat) : (startsFrom off l).length = l.length := by
  induction l generalizing off with
  | nil => rfl
  | cons n ns ih => simp [startsFrom, ih]

theorem ranges_startsFrom (l : List Nat) : ∀ off,
    ranges (startsFrom off l) (List.zipWith (fun a n => a + n - 1) (startsFrom off l) l) =
      List.range' (off + 1) l.sum := by
  induction l with
  | nil => intro off; rfl
  | cons n ns ih =>
    intro off
    have := ih (off + n)
    simp only [ranges, startsFrom, List.zipWith_cons_cons, List.flatten_cons, List.sum_cons] at this ⊢
    rw [this]
    have e : off + 1 + n - 1 + 1 - (off + 1) = n := by omega
    rw [e, show off + n + 1 = (off + 1) + 1 * n by omega, List.range'_append]

theorem ranges_q (l : List Nat) (off : Nat) :
    ranges (if anyPos l then startsFrom off l else [])
      (List.zipWith (fun a n => a + n - 1) (if anyPos l then startsFrom off l else []) l) =
      List.range' (off + 1) l.sum := by
  by_cases h : anyPos l = true
  · simp only [h, if_true]
    exact ranges_startsFrom l off
  · have := sum_zero (anyPos_false (by simpa using h))
    rw [this]
    simp [h, ranges]

theorem anyPos_sq (l : List Nat) : anyPos (l.map fun n => n * n) = anyPos l := by
  unfold anyPos
  rw [List.any_map]
  congr 1
  funext n
  by_cases h : n = 0
  · subst h; rfl
  · have h1 : (n != 0) = true := by simpa using h
    have h2 : (n * n != 0) = true := by simpa using h
    simp only [Function.comp, h1, h2]

theorem endS_eq (K : Cone) : endS K =
    List.zipWith (fun a n => a + n - 1) (startS K) (K.s.map fun n => n * n) := by
  unfold endS
  rw [List.zipWith_map_right]

theorem layout (K : Cone) :
    ranges (startF K) (endF K) ++ ranges (startL K) (endL K) ++ ranges (startQ K) (endQ K) ++
      ranges (startR K) (endR K) ++ ranges (startS K) (endS K) = List.range' 1 (dim K) := by
  have hf : ranges (startF K) (endF K) = List.range' 1 K.f := by
    unfold endF startF
    by_cases h : K.f = 0
    · simp [h, ranges]
    · simp [h, ranges]
  have hl : ranges (startL K) (endL K) = List.range' (K.f + 1) K.l := by
    unfold endL startL
    by_cases h : K.l = 0
    · simp [h, ranges]
    · simp [h, ranges]
  have hq : ranges (startQ K) (endQ K) = List.range' (K.f + K.l + 1) K.q.sum := ranges_q _ _
  have hr : ranges (startR K) (endR K) = List.range' (K.f + K.l + K.q.sum + 1) K.r.sum := ranges_q _ _
  have hs : ranges (startS K) (endS K) = List.range' (offsetS K + 1) (K.s.map fun n => n * n).sum := by
    rw [endS_eq]
    unfold startS
    rw [← anyPos_sq]
    exact ranges_q _ _
  rw [hf, hl, hq, hr, hs, ← numVars_eq, show K.f + 1 = 1 + 1 * K.f by omega, List.range'_append,
    show K.f + K.l + 1 = 1 + 1 * (K.f + K.l) by omega, List.range'_append,
    show K.f + K.l + K.q.sum + 1 = 1 + 1 * (K.f + K.l + K.q.sum) by omega, List.range'_append,
    show offsetS K + 1 = 1 + 1 * (K.f + K.l + K.q.sum + K.r.sum) by unfold offsetS; omega, List.range'_append,
    numVars, numVar_eq]

/-! ### The index lists -/

theorem colon_one (a b : Nat) : colon a 1 b = List.range' a (b + 1 - a) := by
  unfold colon
  by_cases h : a ≤ b
  · rw [if_pos h, List.range'_eq_map_range, Nat.div_one, show b - a + 1 = b + 1 - a by omega]
    simp
  · rw [if_neg h, show b + 1 - a = 0 by omega]
    rfl

theorem startS_ne {K : Cone} (h : startS K ≠ []) : anyPos K.s = true := by
  unfold startS at h
  by_contra hc
  rw [if_neg hc] at h
  exact h rfl

theorem startS_nil {K : Cone} (h : startS K = []) : anyPos K.s = false := by
  by_contra hc
  have hc : anyPos K.s = true := by simpa using hc
  obtain ⟨n, hn, -⟩ := anyPos_true hc
  unfold startS at h
  rw [if_pos hc] at h
  have := congrArg List.length h
  rw [startsFrom_length] at this
  simp at this
  rw [this] at hn
  simp at hn

theorem startS_head {K : Cone} (h : anyPos K.s = true) : (startS K).headD 0 = before K + 1 := by
  obtain ⟨n, hn, -⟩ := anyPos_true h
  unfold startS
  rw [if_pos h]
  cases hs : K.s with
  | nil => rw [hs] at hn; simp at hn
  | cons m ms => simp [startsFrom, offsetS, before]

theorem lowerUpper_filter (s : List Nat) : ∀ off, lowerUpper off (s.filter fun n => n != 0) = lowerUpper off s := by
  induction s with
  | nil => intro off; rfl
  | cons n ns ih =>
    intro off
    by_cases h : n = 0
    · subst h
      have e : ((fun n : Nat => n != 0) 0) = false := rfl
      rw [List.filter_cons_of_neg (by simp), ih]
      simp [lowerUpper]
    · rw [List.filter_cons_of_pos (by simpa using h)]
      simp only [lowerUpper, ih]

theorem lowerUpper_zero {s : List Nat} (h : ∀ n ∈ s, n = 0) : ∀ off, lowerUpper off s = [] := by
  induction s with
  | nil => intro off; rfl
  | cons n ns ih =>
    intro off
    have h0 : n = 0 := h n (by simp)
    subst h0
    simp [lowerUpper, ih fun m hm => h m (by simp [hm])]

theorem lower_eq (K : Cone) : lower K =
    (List.range' 1 (before K)).map (fun k => (k, k)) ++ lowerUpper (before K + 1) K.s := by
  unfold lower
  by_cases h : startS K = []
  · have h0 := anyPos_false (startS_nil h)
    rw [if_pos h, lowerUpper_zero h0, List.append_nil, colon_one]
    congr 2
    have : numVar K.s = 0 := by
      rw [numVar_eq]
      exact List.sum_eq_zero fun n hn => by
        obtain ⟨m, hm, rfl⟩ := List.mem_map.1 hn
        simp [h0 m hm]
    unfold numVars before
    omega
  · have h1 := startS_ne h
    rw [if_neg h, startS_head h1, lowerUpper_filter, colon_one]
    congr 3

/-- The index of the transposed entry. -/
def opp (K : Cone) (k : Nat) : Nat := if k ≤ before K then k else mirror K.s (before K + 1) k

theorem dim_eq (K : Cone) : dim K = before K + numVar K.s := by
  rw [← numVars_eq]
  rfl

theorem opp_spec (K : Cone) {k : Nat} (h1 : 1 ≤ k) (h2 : k ≤ dim K) :
    1 ≤ opp K k ∧ opp K k ≤ dim K ∧ opp K (opp K k) = k := by
  have hd := dim_eq K
  unfold opp
  by_cases hb : k ≤ before K
  · rw [if_pos hb, if_pos hb]
    exact ⟨h1, h2, rfl⟩
  · obtain ⟨m1, m2, m3⟩ := Matlab.mirror_range K.s (before K + 1) k (by omega) (by omega)
    rw [if_neg hb, if_neg (by omega), m3]
    exact ⟨by omega, by omega, rfl⟩

theorem mem_lower {K : Cone} {p : Nat × Nat} (hp : p ∈ lower K) :
    1 ≤ p.1 ∧ p.1 ≤ dim K ∧ p.2 = opp K p.1 ∧ p.1 = opp K p.2 := by
  have hd := dim_eq K
  rw [lower_eq] at hp
  rcases List.mem_append.1 hp with hp | hp
  · obtain ⟨k, hk, rfl⟩ := List.mem_map.1 hp
    have hk := List.mem_range'_1.1 hk
    simp only [opp]
    rw [if_pos (by omega)]
    exact ⟨by omega, by omega, rfl, rfl⟩
  · obtain ⟨h1, h2, h3, h4, h5, h6⟩ := Matlab.lowerUpper_mem _ _ _ hp
    unfold opp
    rw [if_neg (by omega), if_neg (by omega)]
    exact ⟨by omega, by omega, h5, h6⟩

theorem lower_cover (K : Cone) {k : Nat} (h1 : 1 ≤ k) (h2 : k ≤ dim K) :
    (k, opp K k) ∈ lower K ∨ (opp K k, k) ∈ lower K := by
  have hd := dim_eq K
  rw [lower_eq]
  by_cases hb : k ≤ before K
  · left
    refine List.mem_append_left _ (List.mem_map.2 ⟨k, List.mem_range'_1.2 ⟨h1, by omega⟩, ?_⟩)
    unfold opp
    rw [if_pos hb]
  · unfold opp
    rw [if_neg hb]
    rcases Matlab.lowerUpper_cover K.s (before K + 1) k (by omega) (by omega) with h | h
    · exact .inl (List.mem_append_right _ h)
    · exact .inr (List.mem_append_right _ h)

/-- An entry whose index is in both lists lies on the diagonal. -/
theorem lowerUpper_anti : ∀ (s : List Nat) (off : Nat) (p p' : Nat × Nat), p ∈ lowerUpper off s →
    p' ∈ lowerUpper off s → p'.1 = p.2 → p.1 = p.2 := by
  intro s
  induction s with
  | nil => intro off p p' h; simp [lowerUpper] at h
  | cons n ns ih =>
    intro off p p' h h' he
    simp only [lowerUpper, List.mem_append, List.mem_flatMap, List.mem_range, List.mem_map,
      List.mem_filter, decide_eq_true_eq] at h h'
    rcases h with ⟨j, hj, i, ⟨hi, hle⟩, rfl⟩ | h
    · have b2 := Matlab.pos_bounds (off := off) hj hi
      rcases h' with ⟨j', hj', i', ⟨hi', hle'⟩, rfl⟩ | h'
      · simp only at he ⊢
        have e1 := congrArg (fun t => (t - off) % n) he
        have e2 := congrArg (fun t => (t - off) / n) he
        simp only [Matlab.pos_mod hi', Matlab.pos_mod hj, Matlab.pos_div hi', Matlab.pos_div hj] at e1 e2
        have : i = j := by omega
        rw [this]
      · have := (Matlab.lowerUpper_mem _ _ _ h').1
        simp only at he
        omega
    · rcases h' with ⟨j', hj', i', ⟨hi', hle'⟩, rfl⟩ | h'
      · have b2 := Matlab.pos_bounds (off := off) hi' hj'
        have := (Matlab.lowerUpper_mem _ _ _ h).2.2.1
        simp only at he
        omega
      · exact ih _ p p' h h' he

theorem mem_fst {K : Cone} {k : Nat} (h : k ∈ lowerTriIndx K) : 1 ≤ k ∧ k ≤ dim K ∧ (k, opp K k) ∈ lower K := by
  obtain ⟨p, hp, rfl⟩ := List.mem_map.1 h
  obtain ⟨h1, h2, h3, -⟩ := mem_lower hp
  refine ⟨h1, h2, ?_⟩
  rw [← h3]
  exact hp

theorem diag_of_both {K : Cone} {k : Nat} (h : k ∈ lowerTriIndx K) (h' : opp K k ∈ lowerTriIndx K) : opp K k = k := by
  have hp := (mem_fst h).2.2
  have hp' := (mem_fst h').2.2
  rw [lower_eq] at hp hp'
  by_cases hb : k ≤ before K
  · unfold opp; rw [if_pos hb]
  · have n1 : (k, opp K k) ∈ lowerUpper (before K + 1) K.s := by
      rcases List.mem_append.1 hp with hq | hq
      · obtain ⟨t, ht, e⟩ := List.mem_map.1 hq
        have ht := List.mem_range'_1.1 ht
        have : t = k := congrArg Prod.fst e
        omega
      · exact hq
    have n2 : (opp K k, opp K (opp K k)) ∈ lowerUpper (before K + 1) K.s := by
      rcases List.mem_append.1 hp' with hq | hq
      · obtain ⟨t, ht, e⟩ := List.mem_map.1 hq
        have ht := List.mem_range'_1.1 ht
        have : t = opp K k := congrArg Prod.fst e
        have h2 := (Matlab.lowerUpper_mem _ _ _ n1).2.2.1
        simp only at h2
        omega
      · exact hq
    exact (lowerUpper_anti _ _ _ _ n1 n2 rfl).symm

theorem lowerUpper_nodup : ∀ (s : List Nat) (off : Nat), ((lowerUpper off s).map Prod.fst).Nodup := by
  intro s
  induction s with
  | nil => intro off; simp [lowerUpper]
  | cons n ns ih =>
    intro off
    simp only [lowerUpper, List.map_append, List.map_flatMap, List.map_map]
    rw [List.nodup_append]
    refine ⟨?_, ih _, ?_⟩
    · rw [List.nodup_flatMap]
      refine ⟨fun j hj => ?_, ?_⟩
      · refine List.Nodup.map_on ?_ (List.nodup_range.filter _)
        intro a ha b hb e
        have ha := (List.mem_filter.1 ha).1
        simp only [Function.comp, Matlab.pos] at e
        omega
      · refine List.Pairwise.imp_of_mem ?_ (List.pairwise_lt_range (n := n))
        intro j j' hj hj' hlt
        simp only [Function.onFun, List.disjoint_left]
        intro t ht ht'
        obtain ⟨i, hi, rfl⟩ := List.mem_map.1 ht
        obtain ⟨i', hi', e⟩ := List.mem_map.1 ht'
        have hi := List.mem_range.1 (List.mem_filter.1 hi).1
        have hi' := List.mem_range.1 (List.mem_filter.1 hi').1
        simp only [Function.comp] at e
        have := congrArg (fun t => (t - off) / n) e
        simp only [Matlab.pos_div hi', Matlab.pos_div hi] at this
        omega
    · intro a ha b hb
      obtain ⟨j, hj, ha⟩ := List.mem_flatMap.1 ha
      obtain ⟨i, hi, rfl⟩ := List.mem_map.1 ha
      obtain ⟨p, hp, rfl⟩ := List.mem_map.1 hb
      have h1 := (Matlab.lowerUpper_mem _ _ _ hp).1
      have h2 := Matlab.pos_bounds (off := off) (List.mem_range.1 (List.mem_filter.1 hi).1) (List.mem_range.1 hj)
      simp only [Function.comp]
      omega

theorem fst_nodup (K : Cone) : (lowerTriIndx K).Nodup := by
  unfold lowerTriIndx
  rw [lower_eq, List.map_append, List.map_map, List.nodup_append]
  refine ⟨?_, lowerUpper_nodup _ _, ?_⟩
  · rw [show (Prod.fst ∘ fun k : Nat => (k, k)) = id from rfl, List.map_id]
    exact List.nodup_range'
  · intro a ha b hb
    obtain ⟨k, hk, rfl⟩ := List.mem_map.1 ha
    obtain ⟨p, hp, rfl⟩ := List.mem_map.1 hb
    have hk := List.mem_range'_1.1 hk
    have h1 := (Matlab.lowerUpper_mem _ _ _ hp).1
    simp only [Function.comp]
    omega

theorem lower_map (K : Cone) : lower K = (lowerTriIndx K).map fun i => (i, opp K i) := by
  unfold lowerTriIndx
  rw [List.map_map]
  conv_lhs => rw [← List.map_id (lower K)]
  refine List.map_congr_left fun p hp => ?_
  simp only [Function.comp, id]
  rw [← (mem_lower hp).2.2.1]

theorem upper_map (K : Cone) : upperTriIndx K = (lowerTriIndx K).map (opp K) := by
  unfold upperTriIndx
  rw [lower_map, List.map_map]
  rfl

theorem mem_upper {K : Cone} {k : Nat} (h1 : 1 ≤ k) (h2 : k ≤ dim K) :
    k ∈ upperTriIndx K ↔ opp K k ∈ lowerTriIndx K := by
  rw [upper_map, List.mem_map]
  constructor
  · rintro ⟨i, hi, rfl⟩
    rw [(opp_spec K (mem_fst hi).1 (mem_fst hi).2.1).2.2]
    exact hi
  · intro h
    exact ⟨_, h, (opp_spec K h1 h2).2.2⟩

theorem mem_or (K : Cone) {k : Nat} (h1 : 1 ≤ k) (h2 : k ≤ dim K) :
    k ∈ lowerTriIndx K ∨ opp K k ∈ lowerTriIndx K := by
  rcases lower_cover K h1 h2 with h | h
  · exact .inl (List.mem_map.2 ⟨_, h, rfl⟩)
  · exact .inr (List.mem_map.2 ⟨_, h, rfl⟩)

theorem symmetric_iff_symRow : ∀ (s : List Nat) (a : Nat) (x : Nat → ℝ), Spec.Symmetric s a x ↔ SymRow s a x := by
  intro s
  induction s with
  | nil => intro a x; exact Iff.rfl
  | cons n ns ih =>
    intro a x
    simp only [Spec.Symmetric, SymRow, ih, Matlab.pos]
    refine and_congr_left' ⟨fun h i j hi hj => h i hi j hj, fun h i hi j hj => h i j hi hj⟩

theorem symmetric_iff (K : Cone) (x : Nat → ℝ) :
    Spec.Symmetric K.s (before K + 1) x ↔ ∀ k, 1 ≤ k → k ≤ dim K → x (opp K k) = x k := by
  have hd := dim_eq K
  rw [symmetric_iff_symRow, Matlab.symRow_iff]
  unfold opp
  constructor
  · intro h k h1 h2
    by_cases hb : k ≤ before K
    · rw [if_pos hb]
    · rw [if_neg hb]
      exact h k (by omega) (by omega)
  · intro h k h1 h2
    have := h k (by omega) (by omega)
    rwa [if_neg (by omega)] at this

theorem above_iff_aux : ∀ (s : List Nat) (a k : Nat),
    Above s a k ↔ a ≤ k ∧ k < a + numVar s ∧ ¬ (∃ p ∈ lowerUpper a s, p.1 = k) := by
  intro s
  induction s with
  | nil => intro a k; simp only [Above, numVar]; constructor
           · exact False.elim
           · rintro ⟨h1, h2, -⟩; omega
  | cons n ns ih =>
    intro a k
    simp only [Above, ih, numVar]
    constructor
    · rintro (⟨i, j, hij, hj, rfl⟩ | ⟨h1, h2, h3⟩)
      · have hb := Matlab.pos_bounds (off := a) (show i < n by omega) hj
        refine ⟨hb.1, by unfold Matlab.pos at hb; omega, ?_⟩
        rintro ⟨p, hp, he⟩
        simp only [lowerUpper, List.mem_append, List.mem_flatMap, List.mem_range, List.mem_map,
          List.mem_filter, decide_eq_true_eq] at hp
        rcases hp with ⟨j', hj', i', ⟨hi', hle⟩, rfl⟩ | hp
        · have e1 := congrArg (fun t => (t - a) % n) he
          have e2 := congrArg (fun t => (t - a) / n) he
          have f1 := Matlab.pos_mod (off := a) (j := j) (show i < n by omega)
          have f2 := Matlab.pos_div (off := a) (j := j) (show i < n by omega)
          unfold Matlab.pos at f1 f2
          simp only [Matlab.pos_mod hi', Matlab.pos_div hi'] at e1 e2
          omega
        · have := (Matlab.lowerUpper_mem _ _ _ hp).1
          unfold Matlab.pos at hb
          omega
      · refine ⟨by omega, by omega, ?_⟩
        rintro ⟨p, hp, he⟩
        simp only [lowerUpper, List.mem_append, List.mem_flatMap, List.mem_range, List.mem_map,
          List.mem_filter, decide_eq_true_eq] at hp
        rcases hp with ⟨j', hj', i', ⟨hi', hle⟩, rfl⟩ | hp
        · have hb := Matlab.pos_bounds (off := a) hi' hj'
          simp only at he
          omega
        · exact h3 ⟨p, hp, he⟩
    · rintro ⟨h1, h2, h3⟩
      by_cases hk : k < a + n * n
      · left
        obtain ⟨e1, e2, e3⟩ := Matlab.pos_of h1 hk
        refine ⟨(k - a) % n, (k - a) / n, ?_, e2, ?_⟩
        · by_contra hle
          refine h3 ⟨(Matlab.pos a n ((k - a) % n) ((k - a) / n), Matlab.pos a n ((k - a) / n) ((k - a) % n)), ?_, e3⟩
          simp only [lowerUpper, List.mem_append, List.mem_flatMap, List.mem_range, List.mem_map,
            List.mem_filter, decide_eq_true_eq]
          exact .inl ⟨_, e2, _, ⟨e1, by omega⟩, rfl⟩
        · exact e3.symm
      · right
        refine ⟨by omega, by omega, ?_⟩
        rintro ⟨p, hp, he⟩
        refine h3 ⟨p, ?_, he⟩
        simp only [lowerUpper]
        exact List.mem_append_right _ hp

theorem above_iff (K : Cone) {k : Nat} (h1 : 1 ≤ k) (h2 : k ≤ dim K) :
    Above K.s (before K + 1) k ↔ k ∉ lowerTriIndx K := by
  have hd := dim_eq K
  rw [above_iff_aux]
  unfold lowerTriIndx
  rw [lower_eq, List.map_append, List.mem_append, List.map_map]
  constructor
  · rintro ⟨g1, g2, g3⟩ (h | h)
    · obtain ⟨t, ht, rfl⟩ := List.mem_map.1 h
      have ht := List.mem_range'_1.1 ht
      simp only [Function.comp] at g1
      omega
    · obtain ⟨p, hp, rfl⟩ := List.mem_map.1 h
      exact g3 ⟨p, hp, rfl⟩
  · intro h
    have hk : ¬ k ≤ before K := fun hb =>
      h (.inl (List.mem_map.2 ⟨k, List.mem_range'_1.2 ⟨h1, by omega⟩, rfl⟩))
    exact ⟨by omega, by omega, fun ⟨p, hp, e⟩ => h (.inr (List.mem_map.2 ⟨p, hp, e⟩))⟩

end Verif.ConeBase
