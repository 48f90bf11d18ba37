import Mathlib.Algebra.BigOperators.Group.Finset.Basic
import Mathlib.Algebra.BigOperators.Ring.Finset
import Mathlib.Algebra.Order.BigOperators.Group.Finset
import Mathlib.Tactic.Linarith
import Mathlib.Tactic.Ring
import Verif.Model.CostInput
import Verif.Spec.Assembler

/-!
# Lemmas on the quadratic cost passed to the C interface
-/

namespace Verif.CostInput

open Finset

section Loops

variable {R : Type} [Field R] [LinearOrder R]

/-- The variables that are kept. -/
def vars (n : Nat) (M : Nat → Nat → R) : List Nat := (List.range n).filter fun i => 0 < M i i

theorem mem_vars {n : Nat} {M : Nat → Nat → R} {v : Nat} : v ∈ vars n M ↔ v < n ∧ 0 < M v v := by
  simp [vars]

theorem vars_nodup (n : Nat) (M : Nat → Nat → R) : (vars n M).Nodup :=
  List.nodup_range.filter _

theorem nonZeroSubMat_sq (n : Nat) (M Y₀ : Nat → Nat → R) :
    nonZeroSubMat n n M Y₀ = .ok (vars n M, outer M (vars n M) (vars n M) 0 Y₀) := by
  unfold nonZeroSubMat
  rw [if_neg (lt_irrefl _)]
  rfl

theorem inner_eq (M : Nat → Nat → R) (i row : Nat) (l : List Nat) (col : Nat) (Y : Nat → Nat → R)
    (r c : Nat) :
    inner M i row l col Y r c =
      if r = row ∧ col ≤ c ∧ c < col + l.length then (M i (l.getD (c - col) 0) + M (l.getD (c - col) 0) i) / 2
      else if c = row ∧ col ≤ r ∧ r < col + l.length then
        (M i (l.getD (r - col) 0) + M (l.getD (r - col) 0) i) / 2
      else Y r c := by
  induction l generalizing col Y with
  | nil =>
    rw [inner, if_neg (by simp only [List.length_nil]; omega),
      if_neg (by simp only [List.length_nil]; omega)]
  | cons j l ih =>
    rw [inner, ih]
    have hsub : ∀ k, col + 1 ≤ k → (j :: l).getD (k - col) 0 = l.getD (k - (col + 1)) 0 := by
      intro k hk
      have : k - col = (k - (col + 1)) + 1 := by omega
      rw [this, List.getD_cons_succ]
    by_cases h1 : r = row ∧ col + 1 ≤ c ∧ c < col + 1 + l.length
    · rw [if_pos h1, if_pos (show r = row ∧ col ≤ c ∧ c < col + (j :: l).length by simp only [List.length_cons]; omega), hsub c h1.2.1]
    · rw [if_neg h1]
      by_cases h2 : r = row ∧ c = col
      · rw [if_pos (show r = row ∧ col ≤ c ∧ c < col + (j :: l).length by simp only [List.length_cons]; omega)]
        have hz : (j :: l).getD (c - col) 0 = j := by rw [h2.2, Nat.sub_self]; rfl
        rw [hz]
        by_cases h3 : c = row ∧ col + 1 ≤ r ∧ r < col + 1 + l.length
        · omega
        · rw [if_neg h3]
          simp only [write]
          obtain ⟨rfl, rfl⟩ := h2
          simp only [and_self, if_true, ite_self]
      · rw [if_neg (show ¬ (r = row ∧ col ≤ c ∧ c < col + (j :: l).length) by
          simp only [List.length_cons]; omega)]
        by_cases h3 : c = row ∧ col + 1 ≤ r ∧ r < col + 1 + l.length
        · rw [if_pos h3, if_pos (show c = row ∧ col ≤ r ∧ r < col + (j :: l).length by simp only [List.length_cons]; omega), hsub r h3.2.1]
        · rw [if_neg h3]
          by_cases h4 : r = col ∧ c = row
          · rw [if_pos (show c = row ∧ col ≤ r ∧ r < col + (j :: l).length by simp only [List.length_cons]; omega)]
            have hz : (j :: l).getD (r - col) 0 = j := by rw [h4.1, Nat.sub_self]; rfl
            rw [hz]
            simp only [write]
            obtain ⟨rfl, rfl⟩ := h4
            simp
          · rw [if_neg (show ¬ (c = row ∧ col ≤ r ∧ r < col + (j :: l).length) by
              simp only [List.length_cons]; omega)]
            simp only [write]
            rw [if_neg h4, if_neg h2]

theorem outer_eq' (M : Nat → Nat → R) (vs l : List Nat) (row : Nat) (Y : Nat → Nat → R) (pre : List Nat)
    (hv : vs = pre ++ l) (hr : pre.length = row) (r c : Nat)
    (hrl : r < vs.length) (hcl : c < vs.length)
    (hY : r < row ∨ c < row → Y r c = (M (vs.getD r 0) (vs.getD c 0) + M (vs.getD c 0) (vs.getD r 0)) / 2) :
    outer M vs l row Y r c = (M (vs.getD r 0) (vs.getD c 0) + M (vs.getD c 0) (vs.getD r 0)) / 2 := by
  induction l generalizing row Y pre with
  | nil =>
    rw [outer]
    refine hY (Or.inl ?_)
    rw [hv, List.append_nil, hr] at hrl
    exact hrl
  | cons i l ih =>
    rw [outer]
    have hi : vs.getD row 0 = i := by
      rw [hv, List.getD_eq_getElem?_getD, List.getElem?_append_right (by omega), ← hr, Nat.sub_self]
      rfl
    refine ih (row + 1) _ (pre ++ [i]) (by rw [hv]; simp) (by simp [hr]) ?_
    intro h
    rw [inner_eq]
    by_cases h1 : r = row
    · rw [if_pos ⟨h1, by omega, by omega⟩, Nat.sub_zero, h1, hi]
    · rw [if_neg (by tauto)]
      by_cases h2 : c = row
      · rw [if_pos ⟨h2, by omega, by omega⟩, Nat.sub_zero, h2, hi, add_comm]
      · rw [if_neg (by tauto)]
        exact hY (by omega)

theorem outer_eq (M : Nat → Nat → R) (vs : List Nat) (Y : Nat → Nat → R) (r c : Nat)
    (hr : r < vs.length) (hc : c < vs.length) :
    outer M vs vs 0 Y r c = (M (vs.getD r 0) (vs.getD c 0) + M (vs.getD c 0) (vs.getD r 0)) / 2 :=
  outer_eq' M vs vs 0 Y [] rfl rfl r c hr hc (by omega)

end Loops

variable {R : Type} [Field R] [LinearOrder R] [IsStrictOrderedRing R]

theorem cross_zero {n : Nat} {M : Nat → Nat → R}
    (h : ∀ x : Nat → R, 0 ≤ ∑ i ∈ range n, ∑ j ∈ range n, M i j * x i * x j) {i j : Nat} (hi : i < n)
    (hj : j < n) (hd : M i i ≤ 0) : M i j + M j i = 0 := by
  have two : ∀ a b : R, i ≠ j → 0 ≤ M i i * a ^ 2 + (M i j + M j i) * a * b + M j j * b ^ 2 := by
    intro a b hij
    have := h fun k => if k = i then a else if k = j then b else 0
    have e : ∑ p ∈ range n, ∑ q ∈ range n, M p q * (if p = i then a else if p = j then b else 0) *
        (if q = i then a else if q = j then b else 0) =
        M i i * a ^ 2 + (M i j + M j i) * a * b + M j j * b ^ 2 := by
      have row : ∀ F : Nat → R, ∑ q ∈ range n, F q * (if q = i then a else if q = j then b else 0) =
          F i * a + F j * b := by
        intro F
        rw [sum_eq_add_of_mem i j (mem_range.2 hi) (mem_range.2 hj) hij]
        · simp [hij.symm]
        · intro k _ hk
          simp [hk.1, hk.2]
      rw [sum_congr rfl fun p _ => row fun q => M p q * (if p = i then a else if p = j then b else 0)]
      have : ∀ p, M p i * (if p = i then a else if p = j then b else 0) * a +
          M p j * (if p = i then a else if p = j then b else 0) * b =
          (M p i * a + M p j * b) * (if p = i then a else if p = j then b else 0) := fun p => by ring
      simp only [this]
      rw [row]
      ring
    rwa [e] at this
  by_cases hij : i = j
  · subst hij
    have : 0 ≤ M i i := by
      have := h fun k => if k = i then 1 else 0
      simpa [hi] using this
    linarith
  · have h0 : M i i = 0 := by
      have := two 1 0 hij
      simp at this
      linarith
    by_contra hc
    set s := M i j + M j i
    have hjj : 0 ≤ M j j := by
      have := two 0 1 hij
      simpa using this
    have := two (-(M j j + 1) / s) 1 hij
    rw [h0] at this
    have e : s * (-(M j j + 1) / s) = -(M j j + 1) := by
      rw [mul_div_assoc', mul_comm, mul_div_assoc, div_self hc, mul_one]
    have : 0 ≤ s * (-(M j j + 1) / s) * 1 + M j j * 1 ^ 2 := by linarith
    rw [e] at this
    linarith

theorem sum_list {vs : List Nat} (h2 : vs.Nodup) {n : Nat} (h3 : ∀ v ∈ vs, v < n) (F : Nat → R)
    (hF : ∀ u, u ∉ vs → F u = 0) : ∑ i ∈ range vs.length, F (vs.getD i 0) = ∑ u ∈ range n, F u := by
  have e : ∑ u ∈ range n, F u = ∑ u ∈ (range n).filter (· ∈ vs), F u := by
    rw [sum_filter]
    exact sum_congr rfl fun u _ => by
      by_cases h : u ∈ vs
      · rw [if_pos h]
      · rw [if_neg h, hF u h]
  rw [e]
  refine sum_bij' (fun i _ => vs.getD i 0) (fun v _ => vs.idxOf v) ?_ ?_ ?_ ?_ ?_
  · intro i hi
    have hi := mem_range.1 hi
    rw [List.getD_eq_getElem?_getD, List.getElem?_eq_getElem hi, Option.getD_some]
    exact mem_filter.2 ⟨mem_range.2 (h3 _ (List.getElem_mem hi)), List.getElem_mem hi⟩
  · intro v hv
    exact mem_range.2 (List.idxOf_lt_length_of_mem (mem_filter.1 hv).2)
  · intro i hi
    have hi := mem_range.1 hi
    simp only [List.getD_eq_getElem?_getD, List.getElem?_eq_getElem hi, Option.getD_some]
    exact h2.idxOf_getElem i hi
  · intro v hv
    have hv := List.idxOf_lt_length_of_mem (mem_filter.1 hv).2
    rw [List.getD_eq_getElem?_getD, List.getElem?_eq_getElem hv, Option.getD_some, List.getElem_idxOf]
  · intro i _
    rfl

end Verif.CostInput
