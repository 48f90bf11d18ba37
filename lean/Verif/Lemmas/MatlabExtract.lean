import Verif.Spec.MatlabExtract
import Verif.Lemmas.MatlabMask
import Mathlib.Algebra.BigOperators.Ring.Finset
import Mathlib.Algebra.BigOperators.Group.List.Basic
import Mathlib.Algebra.Field.Basic
import Mathlib.Data.List.Sort

/-!
# The extraction of the constraint matrices
-/

namespace Verif.Matlab

open Spec
open scoped BigOperators

variable {R : Type}

/-! ### The entries of a block -/

theorem takeBlock_some {l1 l2 : List (Nat × Nat × R)} {ce : Nat} (h1 : ∀ q ∈ l1, q.2.1 < ce)
    (h2 : ∀ q ∈ l2, ce ≤ q.2.1) (hne : l1 ≠ []) : takeBlock (some (l1 ++ l2)) ce = (l1, some l2) := by
  have hlen : 0 < l1.length := List.length_pos_iff.2 hne
  have hf : ((List.range (l1 ++ l2).length).filter fun t =>
      decide ((((l1 ++ l2).map fun q => q.2.1).getD t 0) < ce)) = List.range l1.length := by
    rw [List.length_append, List.range_add, List.filter_append]
    have e1 : ((List.range l1.length).filter fun t =>
        decide ((((l1 ++ l2).map fun q => q.2.1).getD t 0) < ce)) = List.range l1.length := by
      rw [List.filter_eq_self]
      intro t ht
      have ht := List.mem_range.1 ht
      rw [List.map_append, List.getD_eq_getElem?_getD, List.getElem?_append_left (by simpa using ht),
        List.getElem?_map, List.getElem?_eq_getElem ht]
      simpa using h1 _ (List.getElem_mem ht)
    have e2 : (((List.range l2.length).map fun t => l1.length + t).filter fun t =>
        decide ((((l1 ++ l2).map fun q => q.2.1).getD t 0) < ce)) = [] := by
      rw [List.filter_eq_nil_iff]
      intro t ht
      obtain ⟨u, hu, rfl⟩ := List.mem_map.1 ht
      have hu := List.mem_range.1 hu
      rw [List.map_append, List.getD_eq_getElem?_getD, List.getElem?_append_right (by simp)]
      simp only [List.length_map, Nat.add_sub_cancel_left]
      rw [List.getElem?_map, List.getElem?_eq_getElem hu]
      simpa using h2 _ (List.getElem_mem hu)
    rw [e1, e2, List.append_nil]
  simp only [takeBlock]
  rw [hf]
  obtain ⟨k, hk⟩ : ∃ k, l1.length = k + 1 := ⟨l1.length - 1, by omega⟩
  rw [hk, List.range_succ, List.getLast?_append]
  simp [← hk]

theorem takeBlock_none {l : List (Nat × Nat × R)} {ce : Nat} (h : ∀ q ∈ l, ce ≤ q.2.1) :
    takeBlock (some l) ce = ([], none) := by
  have hf : ((List.range l.length).filter fun t =>
      decide (((l.map fun q => q.2.1).getD t 0) < ce)) = [] := by
    rw [List.filter_eq_nil_iff]
    intro t ht
    have ht := List.mem_range.1 ht
    rw [List.getD_eq_getElem?_getD, List.getElem?_map, List.getElem?_eq_getElem ht]
    simpa using h _ (List.getElem_mem ht)
  simp only [takeBlock]
  rw [hf]
  rfl

section
variable [Field R] [DecidableEq R]

/-- The entries of a column. -/
def colEntries (m : Nat) (A : Nat → Nat → R) (j : Nat) : List (Nat × Nat × R) :=
  ((List.range m).filter fun i => decide (A i j ≠ 0)).map fun i => (i, j, A i j)

/-- The entries of `n` columns from `off` on. -/
def entriesFrom (m : Nat) (A : Nat → Nat → R) (off n : Nat) : List (Nat × Nat × R) :=
  (List.range' off n).flatMap (colEntries m A)

theorem mem_entriesFrom {m : Nat} {A : Nat → Nat → R} {off n : Nat} {q : Nat × Nat × R} :
    q ∈ entriesFrom m A off n ↔ q.1 < m ∧ off ≤ q.2.1 ∧ q.2.1 < off + n ∧ A q.1 q.2.1 ≠ 0 ∧
      q.2.2 = A q.1 q.2.1 := by
  simp only [entriesFrom, colEntries, List.mem_flatMap, List.mem_range'_1, List.mem_map, List.mem_filter,
    List.mem_range, decide_eq_true_eq]
  constructor
  · rintro ⟨j, ⟨h1, h2⟩, i, ⟨h3, h4⟩, rfl⟩
    exact ⟨h3, h1, h2, h4, rfl⟩
  · rintro ⟨h1, h2, h3, h4, h5⟩
    refine ⟨q.2.1, ⟨h2, h3⟩, q.1, ⟨h1, h4⟩, ?_⟩
    rw [← h5]

theorem findEntries_eq (m N : Nat) (A : Nat → Nat → R) : findEntries m N A = entriesFrom m A 0 N := by
  unfold findEntries entriesFrom
  rw [List.range_eq_range' (n := N)]
  rfl

theorem entriesFrom_add (m : Nat) (A : Nat → Nat → R) (off a b : Nat) :
    entriesFrom m A off (a + b) = entriesFrom m A off a ++ entriesFrom m A (off + a) b := by
  unfold entriesFrom
  rw [← List.flatMap_append, List.range'_append_1]

theorem entriesFrom_ne_nil {m : Nat} {A : Nat → Nat → R} {off n : Nat} :
    entriesFrom m A off n ≠ [] ↔ Filled m A off n := by
  constructor
  · intro h
    obtain ⟨q, hq⟩ := List.exists_mem_of_ne_nil _ h
    obtain ⟨h1, h2, h3, h4, -⟩ := mem_entriesFrom.1 hq
    exact ⟨_, _, h1, h2, h3, h4⟩
  · rintro ⟨i, k, h1, h2, h3, h4⟩
    exact List.ne_nil_of_mem (a := (i, k, A i k)) (mem_entriesFrom.2 ⟨h1, h2, h3, h4, rfl⟩)

theorem takeBlock_entries {m : Nat} {A : Nat → Nat → R} {off a b : Nat} (h : Filled m A off a) :
    takeBlock (some (entriesFrom m A off (a + b))) (off + a) =
      (entriesFrom m A off a, some (entriesFrom m A (off + a) b)) := by
  rw [entriesFrom_add]
  exact takeBlock_some (fun q hq => (mem_entriesFrom.1 hq).2.2.1) (fun q hq => (mem_entriesFrom.1 hq).2.1)
    (entriesFrom_ne_nil.2 h)

theorem takeBlock_entries_none {m : Nat} {A : Nat → Nat → R} {off a b : Nat} (h : ¬ Filled m A off a) :
    takeBlock (some (entriesFrom m A off (a + b))) (off + a) = ([], none) := by
  rw [entriesFrom_add]
  have : entriesFrom m A off a = [] := by
    by_contra hne
    exact h (entriesFrom_ne_nil.1 hne)
  rw [this, List.nil_append]
  exact takeBlock_none fun q hq => (mem_entriesFrom.1 hq).2.1

/-! ### The data of one block -/

theorem mem_vars {n off : Nat} {l : List (Nat × Nat × R)} {c : Nat → R} {v : Nat} :
    v ∈ (lmiOf n off l c).vars ↔ ∃ q ∈ l, q.1 = v := by
  simp only [lmiOf, List.mem_dedup, List.mem_mergeSort, List.mem_map]

theorem vars_nodup (n off : Nat) (l : List (Nat × Nat × R)) (c : Nat → R) :
    (lmiOf n off l c).vars.Nodup := List.nodup_dedup _

theorem sum_list_swap {α : Type} (n : Nat) (l : List α) (f : Nat → α → R) :
    ∑ v ∈ Finset.range n, (l.map (f v)).sum = (l.map fun a => ∑ v ∈ Finset.range n, f v a).sum := by
  induction l with
  | nil => simp
  | cons a l ih => simp only [List.map_cons, List.sum_cons, Finset.sum_add_distrib, ih]

/-- The matrices of a block applied to `y`. -/
theorem lmiOf_apply (n off : Nat) (l : List (Nat × Nat × R)) (c y : Nat → R) (i j : Nat) :
    ∑ v ∈ Finset.range (lmiOf n off l c).vars.length,
      (lmiOf n off l c).mats v i j * y ((lmiOf n off l c).vars.getD v 0) =
    (l.map fun q => if q.2.1 - off = i + n * j then q.2.2 * y q.1 else 0).sum := by
  set vars := (lmiOf n off l c).vars with hv
  have h1 : ∀ v, (lmiOf n off l c).mats v i j * y (vars.getD v 0) =
      (l.map fun q => (if vars.idxOf q.1 = v ∧ q.2.1 - off = i + n * j then q.2.2 else 0) *
        y (vars.getD v 0)).sum := by
    intro v
    show (l.map fun q => if vars.idxOf q.1 = v ∧ q.2.1 - off = i + n * j then q.2.2 else 0).sum * _ = _
    rw [List.sum_map_mul_right]
  simp only [h1]
  rw [sum_list_swap]
  refine congrArg List.sum (List.map_congr_left fun q hq => ?_)
  have hmem : q.1 ∈ vars := mem_vars.2 ⟨q, hq, rfl⟩
  have hlt := List.idxOf_lt_length_of_mem hmem
  rw [Finset.sum_eq_single (vars.idxOf q.1)]
  · by_cases hp : q.2.1 - off = i + n * j
    · rw [if_pos ⟨rfl, hp⟩, if_pos hp, List.getD_eq_getElem?_getD, List.getElem?_eq_getElem hlt,
        Option.getD_some, List.getElem_idxOf]
    · rw [if_neg (fun h => hp h.2), if_neg hp, zero_mul]
  · intro v _ hne
    rw [if_neg (fun h => hne h.1.symm), zero_mul]
  · intro h
    exact absurd (Finset.mem_range.2 hlt) h

theorem sum_filter_map (m : Nat) (A : Nat → Nat → R) (k : Nat) (g : Nat → R → R) (hg : ∀ i, g i 0 = 0) :
    ((colEntries m A k).map fun q => g q.1 q.2.2).sum = ∑ i ∈ Finset.range m, g i (A i k) := by
  unfold colEntries
  induction m with
  | zero => simp
  | succ m ih =>
    rw [List.range_succ, List.filter_append, List.map_append, List.map_append, List.sum_append, ih,
      Finset.sum_range_succ]
    congr 1
    by_cases h : A m k = 0
    · simp [h, hg]
    · simp [h]

theorem entries_apply (m : Nat) (A : Nat → Nat → R) (y : Nat → R) (t : Nat) : ∀ (n off0 off : Nat),
    off0 ≤ off → ((entriesFrom m A off n).map fun q => if q.2.1 - off0 = t then q.2.2 * y q.1 else 0).sum =
      if off ≤ off0 + t ∧ off0 + t < off + n then ∑ i ∈ Finset.range m, A i (off0 + t) * y i else 0 := by
  intro n
  induction n with
  | zero => intro off0 off _; simp [entriesFrom]
  | succ n ih =>
    intro off0 off h
    rw [Nat.add_comm n 1, entriesFrom_add, List.map_append, List.sum_append, ih off0 (off + 1) (by omega)]
    have h1 : ((entriesFrom m A off 1).map fun q => if q.2.1 - off0 = t then q.2.2 * y q.1 else 0).sum =
        if off = off0 + t then ∑ i ∈ Finset.range m, A i (off0 + t) * y i else 0 := by
      have e : entriesFrom m A off 1 = colEntries m A off := by simp [entriesFrom]
      rw [e]
      have e2 : ((colEntries m A off).map fun q => if q.2.1 - off0 = t then q.2.2 * y q.1 else 0) =
          (colEntries m A off).map fun q => if off - off0 = t then q.2.2 * y q.1 else 0 := by
        refine List.map_congr_left fun q hq => ?_
        obtain ⟨i, -, rfl⟩ := List.mem_map.1 hq
        rfl
      rw [e2, sum_filter_map m A off (fun i a => if off - off0 = t then a * y i else 0) (by simp)]
      by_cases hk : off = off0 + t
      · rw [if_pos hk]
        refine Finset.sum_congr rfl fun i _ => ?_
        rw [if_pos (by omega), hk]
      · rw [if_neg hk]
        refine Finset.sum_eq_zero fun i _ => ?_
        rw [if_neg (by omega)]
    rw [h1]
    by_cases ha : off = off0 + t
    · rw [if_pos ha, if_neg (by omega), if_pos (by omega), add_zero]
    · rw [if_neg ha, zero_add]
      by_cases hb : off + 1 ≤ off0 + t ∧ off0 + t < off + 1 + n
      · rw [if_pos hb, if_pos (by omega)]
      · rw [if_neg hb, if_neg (by omega)]

theorem lmiOf_stands (m : Nat) (A : Nat → Nat → R) (c : Nat → R) (n off : Nat) :
    StandsFor m A c n off (lmiOf n off (entriesFrom m A off (n * n)) c) where
  order := rfl
  nodup := vars_nodup _ _ _ _
  lt v hv := by
    obtain ⟨q, hq, rfl⟩ := mem_vars.1 hv
    exact (mem_entriesFrom.1 hq).1
  slack y i j hi hj := by
    rw [lmiOf_apply, entries_apply m A y (i + n * j) (n * n) off off (Nat.le_refl _), if_pos]
    · rfl
    · have hb := pos_bounds (off := off) hi hj
      unfold pos at hb
      omega

theorem lmiOf_empty (m : Nat) (A : Nat → Nat → R) (c : Nat → R) (n off : Nat) :
    StandsFor m A c n off (lmiOf n off [] c) ↔ ¬ Filled m A off (n * n) := by
  constructor
  · rintro h ⟨i, k, hi, h1, h2, h3⟩
    obtain ⟨e1, e2, e3⟩ := pos_of h1 h2
    have := h.slack (fun r => if r = i then 1 else 0) _ _ e1 e2
    rw [lmiOf_apply n off [] c (fun r => if r = i then 1 else 0)] at this
    simp only [List.map_nil, List.sum_nil, sub_zero] at this
    have hk : off + ((k - off) % n + n * ((k - off) / n)) = k := e3
    rw [hk, Finset.sum_eq_single i] at this
    · have ha : (lmiOf n off [] c).affine ((k - off) % n) ((k - off) / n) = c k := by
        show c (pos off n _ _) = c k
        rw [e3]
      rw [ha] at this
      simp only [if_true, mul_one] at this
      exact h3 (by simpa using this.symm)
    · intro r _ hr
      rw [if_neg hr, mul_zero]
    · intro hr
      exact absurd (Finset.mem_range.2 hi) hr
  · intro h
    have : entriesFrom m A off (n * n) = [] := by
      by_contra hne
      exact h (entriesFrom_ne_nil.1 hne)
    have := lmiOf_stands m A c n off
    rwa [‹entriesFrom m A off (n * n) = []›] at this

theorem extract_none (m : Nat) (A : Nat → Nat → R) (c : Nat → R) : ∀ (s : List Nat) (off : Nat),
    AllStand m A c s off (extractLoop c s off none) ↔ ¬ Filled m A off (numVar s) := by
  intro s
  induction s with
  | nil =>
    intro off
    simp only [extractLoop, AllStand, numVar, true_iff]
    rintro ⟨i, k, -, h1, h2, -⟩
    omega
  | cons n ns ih =>
    intro off
    simp only [extractLoop, takeBlock, AllStand, ih, lmiOf_empty, numVar]
    constructor
    · rintro ⟨h1, h2⟩ ⟨i, k, hi, k1, k2, hk⟩
      by_cases hlt : k < off + n * n
      · exact h1 ⟨i, k, hi, k1, hlt, hk⟩
      · exact h2 ⟨i, k, hi, by omega, by omega, hk⟩
    · intro h
      exact ⟨fun ⟨i, k, hi, k1, k2, hk⟩ => h ⟨i, k, hi, k1, by omega, hk⟩,
        fun ⟨i, k, hi, k1, k2, hk⟩ => h ⟨i, k, hi, by omega, by omega, hk⟩⟩

theorem extract_some (m : Nat) (A : Nat → Nat → R) (c : Nat → R) : ∀ (s : List Nat) (off : Nat),
    AllStand m A c s off (extractLoop c s off (some (entriesFrom m A off (numVar s)))) ↔
      NoGap m A s off := by
  intro s
  induction s with
  | nil => intro off; simp [extractLoop, AllStand, NoGap]
  | cons n ns ih =>
    intro off
    simp only [extractLoop, AllStand, numVar, NoGap]
    by_cases hf : Filled m A off (n * n)
    · rw [takeBlock_entries hf]
      simp only [ih]
      constructor
      · exact fun h => .inl ⟨hf, h.2⟩
      · rintro (h | h)
        · exact ⟨lmiOf_stands m A c n off, h.2⟩
        · obtain ⟨i, k, hi, k1, k2, hk⟩ := hf
          exact absurd (h i k hi k1 (by omega)) hk
    · rw [takeBlock_entries_none hf]
      simp only [extract_none, lmiOf_empty]
      constructor
      · rintro ⟨-, h⟩
        refine .inr fun i k hi k1 k2 => ?_
        by_contra hk
        by_cases hlt : k < off + n * n
        · exact hf ⟨i, k, hi, k1, hlt, hk⟩
        · exact h ⟨i, k, hi, by omega, by omega, hk⟩
      · rintro (h | h)
        · exact absurd h.1 hf
        · refine ⟨hf, ?_⟩
          rintro ⟨i, k, hi, k1, k2, hk⟩
          exact hk (h i k hi (by omega) (by omega))

end
end Verif.Matlab
