import Verif.Lemmas.KktFrom
import Verif.Props.KktSolve

/-!
# C110: the solver built from given supernodes
-/

namespace Verif.Sup

open Verif.Clique

/-- **C110, as far as it holds.** Take the elimination order, the supernodes and the separators that the
first constructor computed for duplicate-free index sets.  The second constructor accepts them and
arrives at the same data and at the same permutation, and without dual variables at the same solver.
(Missing: dual variables, see `C110_duals_violated`; supernodes that do not fit the index sets, see
`C110_unchecked_violated`.) -/
theorem C110_same_partial (cs duals : List (List Nat)) (hnd : ∀ c ∈ cs, c.Nodup) (k : Kkt)
    (h : kktInit cs duals = .ok k) :
    ∃ k', kktFrom cs k.data.permutation.length k.data.cliqueOrder
        (byClique k.data.cliqueOrder k.data.snLabels)
        (byClique k.data.cliqueOrder k.data.sepLabels) = .ok k' ∧
      k'.cliques = cs ∧ k'.data = k.data ∧ k'.pt = k.pt ∧
      (duals = List.replicate cs.length [] → k' = k) := by
  unfold kktInit at h
  cases hr : getRootNode cs duals with
  | throws => rw [hr] at h; simp [Outcome.bind] at h
  | ub => rw [hr] at h; simp [Outcome.bind] at h
  | diverges => rw [hr] at h; simp [Outcome.bind] at h
  | ok root =>
    rw [hr] at h
    simp only [Outcome.bind] at h
    cases hd : getData cs (some (isEmptyVec duals)) root with
    | throws => rw [hd] at h; simp at h
    | ub => rw [hd] at h; simp at h
    | diverges => rw [hd] at h; simp at h
    | ok d =>
      rw [hd] at h
      simp only [Outcome.ok.injEq] at h
      subst h
      obtain ⟨sn, sep, nv, P, hs⟩ := getData_from hnd hd
      obtain ⟨p, q, e, l1, -⟩ := supernodesToData_spec P
      obtain ⟨_, _, _, D⟩ := getData_spec hnd hd
      have hperm := D.perm
      rw [hs] at e
      simp only [Outcome.ok.injEq] at e
      have hp : d.permutation.length = nv := by rw [e]; exact l1
      have hsn : d.snLabels = d.cliqueOrder.map sn := by
        rw [e]
      have hsep : d.sepLabels = d.cliqueOrder.map (sepO d.cliqueOrder sn sep) := by
        rw [e]
      have key : supernodesToData d.permutation.length d.cliqueOrder
          (byClique d.cliqueOrder d.snLabels) (byClique d.cliqueOrder d.sepLabels) = .ok d := by
        rw [hp, hsn, hsep, supernodesToData_congr (fun x hx => byClique_map sn hx)
          (fun x hx => byClique_map _ hx), supernodesToData_sorted P, hs]
      have hlen : d.cliqueOrder.length = cs.length := by simpa using hperm.length_eq
      have hall : (d.cliqueOrder.take cs.length).all (· < cs.length) = true := by
        rw [List.take_of_length_le (by omega), List.all_eq_true]
        intro x hx
        simpa using hperm.mem_iff.1 hx
      have l2 : d.snLabels.length = cs.length := by rw [hsn, List.length_map, hlen]
      have l3 : d.sepLabels.length = cs.length := by rw [hsep, List.length_map, hlen]
      have first : ∀ (ds labels : List (List Nat)), labels.length = cs.length →
          relabelFirst cs ds d.cliqueOrder labels = relabelAll cs ds d.cliqueOrder labels := by
        intro ds labels hl
        unfold relabelFirst
        rw [List.take_of_length_le (by omega), List.take_of_length_le (by omega),
          List.drop_eq_nil_of_le (by omega)]
        simp
      refine ⟨{ cliques := cs
                duals := List.replicate cs.length []
                data := d
                snPos := relabelFirst cs (List.replicate cs.length []) d.cliqueOrder d.snLabels
                sepPos := relabelFirst cs (List.replicate cs.length []) d.cliqueOrder d.sepLabels
                pt := d.permutationInverse.take d.N }, ?_, rfl, rfl, rfl, ?_⟩
      · unfold kktFrom
        simp only
        rw [key]
        simp only [Outcome.bind]
        rw [if_pos ⟨by omega, hall⟩]
      intro hdu
      subst hdu
      simp only [first _ _ l2, first _ _ l3]

/-- A concrete case: four index sets on a cycle. -/
example : (∀ c ∈ [[3, 0], [0, 1], [1, 2], [2, 3]], c.Nodup) ∧
    (kktInit [[3, 0], [0, 1], [1, 2], [2, 3]] [[], [], [], []]).toOption.isSome = true := by
  refine ⟨by decide, by decide +kernel⟩

/-- **C110 is violated** (finding F100): the second constructor cannot be told of dual variables.  For an
equation in one variable (unknown 1 is its multiplier) the first constructor records the multiplier, so
that `Factor` uses the factorisation for indefinite matrices.  The second records none for the same
order, supernodes and separators, so that `Factor` uses the one for positive definite matrices. -/
theorem C110_duals_violated : ∃ k k' : Kkt,
    kktInit [[0, 1]] [[1]] = .ok k ∧
    kktFrom [[0, 1]] 2 k.data.cliqueOrder (byClique k.data.cliqueOrder k.data.snLabels)
      (byClique k.data.cliqueOrder k.data.sepLabels) = .ok k' ∧
    k'.data = k.data ∧ k.duals.all (fun d => d.length = 0) = false ∧
    k'.duals.all (fun d => d.length = 0) = true := by
  refine ⟨⟨[[0, 1]], [[1]], ⟨[[0, 1]], [[0, 1]], [[]], [2], [0, 1], [0, 1], [0], 2⟩, [[0, 1]], [[]],
    [0, 1]⟩, ⟨[[0, 1]], [[]], ⟨[[0, 1]], [[0, 1]], [[]], [2], [0, 1], [0, 1], [0], 2⟩, [[0, 1]], [[]],
    [0, 1]⟩, ?_, ?_, rfl, ?_, ?_⟩ <;> decide +kernel

/-- **C110 is violated** (finding F100): the supernodes are not compared with the index sets.  For the
index sets `{0, 1}` and `{1, 2}`, the supernodes `{0}` and `{1, 2}` with empty separators are accepted,
and no block has a place for the coefficient between the unknowns 0 and 1. -/
theorem C110_unchecked_violated : ∃ k' : Kkt,
    kktFrom [[0, 1], [1, 2]] 3 [0, 1] (fun e => if e = 0 then [0] else [1, 2]) (fun _ => []) = .ok k' ∧
    k'.data.cliques = [[0], [1, 2]] ∧ k'.snPos = [[0], [0, 1]] ∧ k'.sepPos = [[], []] ∧
    ∀ c ∈ k'.data.cliques, ¬ (k'.data.permutation.getD 0 0 ∈ c ∧ k'.data.permutation.getD 1 0 ∈ c) := by
  refine ⟨⟨[[0, 1], [1, 2]], [[], []], ⟨[[0], [1, 2]], [[0], [1, 2]], [[], []], [1, 2], [0, 1, 2],
    [0, 1, 2], [0, 1], 3⟩, [[0], [0, 1]], [[], []], [0, 1, 2]⟩, ?_, rfl, rfl, rfl, ?_⟩ <;> decide +kernel

/-- Assemble, factor and solve with a given solver, without refinement
(`/repo/conex/kkt_solver.cc` 164-263); `none`: `Factor` returned `false`. -/
def exSolve (k : Outcome Kkt) (G : Nat → Nat → Nat → Rat) (rows : Nat) (b : Nat → Rat) :
    Outcome (Option (List Rat)) :=
  k.bind fun k => (assemble k G (fun _ => 7)).bind fun p =>
  ((Solver.mk k p.1 p.2 false 0 none none).factor exLlt).bind fun o =>
  match o with
  | none => .ok none
  | some s => (s.solveInPlace (fun _ _ b => b) rows b).bind fun x => .ok (some ((List.range rows).map x))

/-- **C110 is violated** (finding F100), in terms of the solutions.  Minimise `x²/2` subject to `x = 1`,
that is, the matrix `[1 1; 1 0]`: the solver of the first constructor solves the system, and the
factorisation of the second fails. -/
theorem C110_equation_violated :
    exSolve (kktInit [[0, 1]] [[1]]) (fun _ i j => if i = 1 ∧ j = 1 then 0 else 1) 2
      (fun u => if u = 0 then 0 else 1) = .ok (some [1, -1]) ∧
    exSolve (kktFrom [[0, 1]] 2 [0] (fun _ => [0, 1]) (fun _ => []))
      (fun _ i j => if i = 1 ∧ j = 1 then 0 else 1) 2 (fun u => if u = 0 then 0 else 1) = .ok none := by
  constructor <;> decide +kernel

/-- The systems `[4 2; 2 1]` on the unknowns 0, 1 and `[4 0; 0 4]` on the unknowns 1, 2. -/
def exBlocks (e i j : Nat) : Rat :=
  if e = 0 then (if i = 0 ∧ j = 0 then 4 else if i = j then 1 else 2) else if i = j then 4 else 0

/-- **C110 is violated** (finding F100), in terms of the solutions.  With the separators that miss an
index, a positive definite system is solved without complaint for another matrix: `(1, 1, 1)` solves
the assembled system, and the second constructor leads to `(3/2, 7/4, 1)`. -/
theorem C110_dropped_violated :
    exSolve (kktInit [[0, 1], [1, 2]] [[], []]) exBlocks 3
      (fun u => if u = 0 then 6 else if u = 1 then 7 else 4) = .ok (some [1, 1, 1]) ∧
    exSolve (kktFrom [[0, 1], [1, 2]] 3 [0, 1] (fun e => if e = 0 then [0] else [1, 2]) (fun _ => []))
      exBlocks 3 (fun u => if u = 0 then 6 else if u = 1 then 7 else 4) =
        .ok (some [3 / 2, 7 / 4, 1]) := by
  constructor <;> decide +kernel

end Verif.Sup
