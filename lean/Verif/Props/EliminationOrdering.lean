import Verif.Lemmas.EliminationOrdering
import Mathlib.Algebra.BigOperators.Group.Finset.Basic
import Mathlib.Tactic.IntervalCases

/-!
# C22-C24: elimination orderings and chordality
-/

namespace Verif.Elim

open Spec

/-- **C22.** For every symmetric matrix, the ordering check answers yes exactly when the order
`0, 1, …` is a perfect elimination order of its graph. -/
theorem C22_perfect_order (N : Nat) (A : Nat → Nat → Int)
    (hsym : ∀ i j, i < N → j < N → A i j = A j i) :
    isPerfectlyOrdered N A = true ↔ PerfectOrder (Adj A) N := by
  unfold isPerfectlyOrdered
  simp only
  rw [foldl_and, Bool.true_and, List.all_eq_true]
  have hp : ∀ i, i < N → (passTest N (fun i j => if A i j ≠ 0 then (1 : Int) else 0) i = true ↔
      ∀ j k, i < j → i < k → j < N → k < N → j ≠ k → A i j ≠ 0 → A i k ≠ 0 → A j k ≠ 0) := by
    intro i hi
    rw [passTest_iff _ _ hi]
    · simp
    · intro i j _ _
      by_cases h : A i j = 0 <;> simp [h]
    · intro i j hi hj
      simp only [hsym i j hi hj]
  constructor
  · intro h i j k hij hik hj hk
    exact (hp i (by omega)).1 (h i (List.mem_range.2 (by omega))) j k hij hik hj hk
  · intro h i hi
    exact (hp i (List.mem_range.1 hi)).2 fun j k hij hik hj hk => h i j k hij hik hj hk

/-- A path in its natural order and a path in a bad order. -/
example : isPerfectlyOrdered 3 (fun i j => if i ≤ j + 1 ∧ j ≤ i + 1 then 7 else 0) = true ∧
    isPerfectlyOrdered 3 (fun i j => if i = 0 ∨ j = 0 ∨ i = j then 7 else 0) = false := by
  decide +kernel

/-- **C23.** For a non-empty graph the ordering lists every vertex exactly once. Vertices are chosen
from the last position to the first; the first vertex chosen has the largest degree, and every vertex
chosen has, among the vertices not yet chosen, the largest number of neighbours already chosen. -/
theorem C23_maximum_cardinality (N : Nat) (A : Nat → Nat → Int) (hN : 0 < N) :
    ∃ order, eliminationOrdering N A = .ok order ∧ order.Perm (List.range N) ∧
      (∃ v, order.getLast? = some v ∧ ∀ u, u < N → ∑ j ∈ Finset.range N, A u j - A u u ≤
        ∑ j ∈ Finset.range N, A v j - A v v) ∧
      ∀ pre v chosen, order = pre ++ v :: chosen → ∀ u, u < N → u ∉ chosen →
        nbrs A u chosen ≤ nbrs A v chosen := by
  obtain ⟨v, h1, h2, h3⟩ := maxDegreeVertex_spec A hN
  obtain ⟨order, h4, h5, h6, h7⟩ := findOrder_spec A h2
  refine ⟨order, ?_, h5, ⟨v, h7, ?_⟩, h6⟩
  · unfold eliminationOrdering
    rw [h1]
    exact h4
  · intro u hu
    exact h3 u hu

example : eliminationOrdering 5 (fun i j => if i ≤ j + 1 ∧ j ≤ i + 1 then 1 else 0) =
    .ok [0, 4, 3, 2, 1] := by decide +kernel

/-- **C23, empty graph.** The hypothesis that the graph is not empty is needed: otherwise an entry of
an empty vector is read. -/
theorem C23_empty_graph_violated (A : Nat → Nat → Int) : eliminationOrdering 0 A = .ub := rfl

/-- **C24.** For every non-empty graph given by a symmetric 0/1 matrix, the chordality test answers yes
exactly when every cycle of length at least four has a chord. -/
theorem C24_chordal (N : Nat) (A : Nat → Nat → Int) (hN : 0 < N)
    (h01 : ∀ i j, i < N → j < N → A i j = 0 ∨ A i j = 1)
    (hsym : ∀ i j, i < N → j < N → A i j = A j i) :
    ∃ b, isChordal N A = .ok b ∧ (b = true ↔ Chordal (Adj A) N) := by
  obtain ⟨order, h1, h2, h3, _⟩ := findOrder_spec A hN
  have hlt : ∀ i, i < N → order.getD i 0 < N := by
    intro i h
    have hlen : order.length = N := by rw [h2.length_eq, List.length_range]
    rw [List.getD_eq_getElem?_getD, List.getElem?_eq_getElem (by omega)]
    exact List.mem_range.1 (h2.mem_iff.1 (List.getElem_mem _))
  -- the graph, extended symmetrically to all numbers
  let adj : Nat → Nat → Prop := fun i j => i < N ∧ j < N ∧ permuted A order i j ≠ 0
  have hadj : ∀ i j, adj i j → adj j i := by
    rintro i j ⟨hi, hj, h⟩
    refine ⟨hj, hi, ?_⟩
    unfold permuted at h ⊢
    rw [hsym _ _ (hlt j hj) (hlt i hi)]
    exact h
  have hch : Chordal adj N ↔ Chordal (Adj A) N := by
    rw [← chordal_permuted h2]
    constructor
    · intro h m c hm ⟨g1, g2, g3, g4⟩
      obtain ⟨i, j, hij, hj, hne, hnl, ha⟩ := h m c hm ⟨g1, g2,
        fun i hi => ⟨g1 _ (by omega), g1 _ hi, g3 i hi⟩, ⟨g1 _ (by omega), g1 _ (by omega), g4⟩⟩
      exact ⟨i, j, hij, hj, hne, hnl, ha.2.2⟩
    · intro h m c hm ⟨g1, g2, g3, g4⟩
      obtain ⟨i, j, hij, hj, hne, hnl, ha⟩ := h m c hm ⟨g1, g2, fun i hi => (g3 i hi).2.2, g4.2.2⟩
      exact ⟨i, j, hij, hj, hne, hnl, g1 i (by omega), g1 j hj, ha⟩
  have hpo : firstFailure N (permuted A order) = none ↔ PerfectOrder adj N := by
    unfold firstFailure
    rw [List.find?_eq_none]
    have hp : ∀ i, i < N → _ := fun i hi => passTest_iff (A := permuted A order)
      (fun i j hi hj => h01 _ _ (hlt i hi) (hlt j hj))
      (fun i j hi hj => hsym _ _ (hlt i hi) (hlt j hj)) hi
    constructor
    · intro h i j k hij hik hj hk hjk ha hb
      have := h i (List.mem_range.2 (by omega))
      simp only [Bool.not_eq_true, Bool.not_eq_false'] at this
      exact ⟨hj, hk, (hp i (by omega)).1 this j k hij hik hj hk hjk ha.2.2 hb.2.2⟩
    · intro h i hi
      have hi' := List.mem_range.1 hi
      simp only [Bool.not_eq_true, Bool.not_eq_false']
      refine (hp i hi').2 fun j k hij hik hj hk hjk ha hb => ?_
      exact (h i j k hij hik hj hk hjk ⟨hi', hj, ha⟩ ⟨hi', hk, hb⟩).2.2
  have hiff : PerfectOrder adj N ↔ Chordal adj N := by
    refine ⟨chordal_of_perfect hadj, fun h => perfect_of_chordal hadj h ?_⟩
    intro a b c hab hbc hc hac hnbc
    obtain ⟨d, d1, d2, d3, d4⟩ := greedy_exchange h2 h3 hab hbc hc hac.2.2 (by
      by_contra hcon
      exact hnbc ⟨by omega, hc, hcon⟩)
    exact ⟨d, d1, d2, ⟨by omega, d2, d3⟩, fun h => h.2.2 d4⟩
  refine ⟨(firstFailure N (permuted A order)).isNone, ?_, ?_⟩
  · unfold isChordal
    rw [h1]
    simp only [Outcome.bind]
    cases firstFailure N (permuted A order) <;> rfl
  · rw [Option.isNone_iff_eq_none, hpo, hiff, hch]

/-- The cycle with `n` vertices. -/
def cycleGraph (n i j : Nat) : Int := if i = j ∨ (i + 1) % n = j ∨ (j + 1) % n = i then 1 else 0

example : isChordal 3 (cycleGraph 3) = .ok true ∧ isChordal 5 (cycleGraph 5) = .ok false := by
  decide +kernel

example : (∀ i j, i < 5 → j < 5 → cycleGraph 5 i j = 0 ∨ cycleGraph 5 i j = 1) ∧
    (∀ i j, i < 5 → j < 5 → cycleGraph 5 i j = cycleGraph 5 j i) := by
  constructor <;> intro i j hi hj <;> interval_cases i <;> interval_cases j <;> decide

/-- **C24, weighted graphs.** The restriction to 0/1 matrices is needed: a triangle with weights 2 is
declared not chordal (the ordering check C22 does not have this restriction). -/
theorem C24_weighted_violated :
    isChordal 3 (fun i j => if i = j then 1 else 2) = .ok false ∧
      isPerfectlyOrdered 3 (fun i j => if i = j then 1 else 2) = true := by
  decide +kernel

/-! ### C47 -/

/-- **C47, what holds.** If a witness `w, x, y, v` is reported, then in the numbering of the search the
vertices `w`, `x` and `y` are vertices of the graph, `w` is adjacent to `x` and to `y`, and `x` and `y`
are not adjacent. Missing for C47: the numbering is not the one of the graph passed in, consecutive
entries are not adjacent, the fourth vertex, and definedness; see the two theorems below. -/
theorem C47_witness_partial (N : Nat) (A : Nat → Nat → Int) (path : List Int)
    (h : isChordalPath N A = .ok (false, path)) :
    ∃ (order : List Nat) (w x y : Nat) (v : Int), findOrder N A 0 = .ok order ∧ path = [(w : Int), (x : Int), (y : Int), v] ∧
      w < N ∧ x < N ∧ y < N ∧
      Adj (permuted A order) w x ∧ Adj (permuted A order) w y ∧ ¬ Adj (permuted A order) x y := by
  unfold isChordalPath at h
  cases ho : findOrder N A 0 with
  | throws => rw [ho] at h; simp [Outcome.bind] at h
  | ub => rw [ho] at h; simp [Outcome.bind] at h
  | diverges => rw [ho] at h; simp [Outcome.bind] at h
  | ok order =>
    rw [ho] at h
    simp only [Outcome.bind] at h
    cases hf : firstFailure N (permuted A order) with
    | none => rw [hf] at h; simp at h
    | some w =>
      rw [hf] at h
      simp only at h
      have hw : w < N := List.mem_range.1 (List.mem_of_find?_eq_some hf)
      generalize hB : permuted A order = B at *
      rcases chooseXY_spec B ((keep N B w).map (· + w)) w with hc | ⟨x, y, hx, hy, hc, h1, h2, h3⟩
      · rw [extract_none hc] at h
        simp at h
      · have hlt : ∀ u ∈ (keep N B w).map (· + w), u < N := by
          intro u hu
          obtain ⟨i, hi, rfl⟩ := List.mem_map.1 hu
          have := (mem_keep.1 hi).1
          omega
        have hpath : ∃ v, path = [(w : Int), (x : Int), (y : Int), v] := by
          cases he : extractChordlessPath N B (keep N B w) w with
          | throws => rw [he] at h; simp at h
          | ub => rw [he] at h; simp at h
          | diverges => rw [he] at h; simp at h
          | ok q =>
            rw [he] at h
            simp only [Outcome.ok.injEq, Prod.mk.injEq, true_and] at h
            rw [← h]
            exact extract_some hc he
        obtain ⟨v, hv⟩ := hpath
        subst hB
        exact ⟨order, w, x, y, v, rfl, hv, hw, hlt x hx, hlt y hy, h1, h2, fun h => h h3⟩

/-- **C47 is violated** (finding F25): for the cycle on four vertices the entries reported are
`0, 1, 3, 2`, but the vertices 1 and 3 are not adjacent, neither in the graph passed in nor in the
numbering of the search. -/
theorem C47_not_a_path_violated :
    isChordalPath 4 (cycleGraph 4) = .ok (false, [0, 1, 3, 2]) ∧ ¬ Adj (cycleGraph 4) 1 3 ∧
      ∃ order, findOrder 4 (cycleGraph 4) 0 = .ok order ∧ ¬ Adj (permuted (cycleGraph 4) order) 1 3 := by
  refine ⟨by decide +kernel, by unfold Adj; decide, [1, 2, 3, 0], by decide +kernel, ?_⟩
  unfold Adj
  decide

/-- **C47 is violated** (finding F25): for the cycle on four vertices together with an isolated vertex,
asking for a witness reads column -1 of a matrix. -/
theorem C47_undefined_violated :
    isChordal 5 (fun i j => if i < 4 ∧ j < 4 then cycleGraph 4 i j else if i = j then 1 else 0) =
      .ok false ∧
    isChordalPath 5 (fun i j => if i < 4 ∧ j < 4 then cycleGraph 4 i j else if i = j then 1 else 0) =
      .ub := by
  decide +kernel

/-! ### C48 -/

/-- **C48, what holds.** Every vertex other than 0 is listed exactly if no row sum exceeds its own.
Missing for C48: vertex 0 is never listed. -/
theorem C48_max_degree_partial (N : Nat) (A : Nat → Nat → Int) (hN : 0 < N) :
    ∃ l, maximumDegreeVertices N A = .ok l ∧ ∀ i, i ∈ l ↔ 0 < i ∧ i < N ∧
      ∀ u, u < N → ∑ j ∈ Finset.range N, A u j ≤ ∑ j ∈ Finset.range N, A i j := by
  unfold maximumDegreeVertices
  rw [if_neg (by omega)]
  simp only
  refine ⟨_, rfl, ?_⟩
  obtain ⟨m, h1, h2, h3, h4⟩ := maxDegreeList_foldl
    (fun i => ((List.range N).map (A i)).sum) 0 (List.range' 1 (N - 1))
  rw [h4]
  intro i
  rw [List.mem_filter, List.mem_range'_1, decide_eq_true_eq]
  have hall : ∀ u, u < N → ((List.range N).map (A u)).sum ≤ m := by
    intro u hu
    rcases Nat.eq_zero_or_pos u with rfl | hpos
    · exact h1
    · exact h3 u (List.mem_range'_1.2 ⟨by omega, by omega⟩)
  constructor
  · rintro ⟨hi, he⟩
    refine ⟨by omega, by omega, fun u hu => ?_⟩
    have := hall u hu
    rw [← he] at this
    exact this
  · rintro ⟨hi, hiN, he⟩
    refine ⟨by omega, le_antisymm (hall i hiN) ?_⟩
    rcases h2 with h2 | ⟨j, hj, h2⟩
    · rw [h2]; exact he 0 hN
    · rw [h2]
      rw [List.mem_range'_1] at hj
      exact he j (by omega)

/-- **C48 is violated** (finding F11): in a star with centre 0 no vertex at all is reported. -/
theorem C48_centre_violated :
    maximumDegreeVertices 4 (fun i j => if i = 0 ∨ j = 0 ∨ i = j then 1 else 0) = .ok [] := by
  decide +kernel

/-- A path with four vertices: the two inner vertices are reported. -/
example : maximumDegreeVertices 4 (fun i j => if i ≤ j + 1 ∧ j ≤ i + 1 then 1 else 0) = .ok [1, 2] := by
  decide +kernel

end Verif.Elim
