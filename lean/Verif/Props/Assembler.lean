import Verif.Lemmas.AssemblerTotal
import Verif.Lemmas.Residuals

/-!
# C18, C19: assembly of the linear system
-/

namespace Verif.Sup

open Verif.Clique Spec

/-- **C18, as far as it holds.** For duplicate-free index sets, each ending with the multipliers of
its constraint, and whatever the buffer contained before: assembly succeeds, and the matrix of the
linear system, read in the user's numbering, is the sum of the matrices of the constraints.
Missing for C18: structures in which a block is written directly with shifted labels (`NoShift`
fails); there the claim is false, see `C18_violated`. -/
theorem C18_assembly_partial {R : Type} [AddCommMonoid R] (cs duals : List (List Nat))
    (hnd : ∀ c ∈ cs, c.Nodup) (hlen : duals.length = cs.length)
    (hdual : ∀ (i : Nat) (c dv : List Nat), cs[i]? = some c → duals[i]? = some dv → ∃ p, c = p ++ dv)
    (k : Kkt) (hk : kktInit cs duals = .ok k) (hgood : NoShift k) (G : Nat → Nat → Nat → R)
    (st : Store R) :
    ∃ w st', assemble k G st = .ok (w, st') ∧
      ∀ u v, (∃ c ∈ cs, u ∈ c) → (∃ c ∈ cs, v ∈ c) →
        kktMatrix k w st' u v = .ok (total cs G u v) :=
  assemble_spec hnd hlen hdual hk hgood G st

/-- The hypotheses of `C18_assembly_partial` on a program with fill-in (a cycle), an equality
constraint with multipliers 4 and 5, and a directly written block (the last constraint). -/
example : ∃ k, kktInit [[0, 1, 6], [3, 1], [2, 3, 4, 5], [2, 0], [7, 8]] [[], [], [4, 5], [], []] = .ok k ∧
    NoShift k ∧ k.snPos = [[0, 1], [2], [1], [], [-1, 0, 1, 2, 3]] := by
  refine ⟨_, rfl, ?_, by decide +kernel⟩
  exact noShift_of_bounded (n := 5) (by decide +kernel) (by decide +kernel)

/-- **C18 is violated** (finding F2): four constraints on the unknowns `{2,3}`, `{1,2}`, `{0,1}` and
`{0,1}`. The second one has the entry 11 between the unknowns 1 and 2, and no other constraint couples
them; the assembled matrix has 0 there. -/
theorem C18_violated :
    ∃ (cs duals : List (List Nat)) (k : Kkt) (w : Workspace) (st : Store Int),
      (∀ c ∈ cs, c.Nodup) ∧ duals = [[], [], [], []] ∧ cs = [[2, 3], [1, 2], [0, 1], [0, 1]] ∧
      kktInit cs duals = .ok k ∧
      assemble k (fun _ r c => (10 * r + c + 1 : Int)) (fun _ => 0) = .ok (w, st) ∧
      kktMatrix k w st 1 2 = .ok 0 ∧ total cs (fun _ r c => (10 * r + c + 1 : Int)) 1 2 = 11 := by
  refine ⟨[[2, 3], [1, 2], [0, 1], [0, 1]], [[], [], [], []], _, _, _, by decide, rfl, rfl, rfl, rfl,
    ?_, ?_⟩
  · decide +kernel
  · decide +kernel

/-- **C19.** For duplicate-free index sets within the range of the output: entry `u` of the
assembled vectors is the sum of the constraints' residuals at `u`, and the scalars are the sums of
the constraints' scalars. Nothing is read or written out of range. -/
theorem C19_residuals {R : Type} [AddCommMonoid R] (rows : Nat) (cs : List (List Nat))
    (r : Nat → Resid R) (hnd : ∀ c ∈ cs, c.Nodup) (hb : ∀ c ∈ cs, ∀ k ∈ c, k < rows) :
    ∃ s, assembleResiduals rows cs r = .ok s ∧
      s.wc = ((List.range cs.length).map fun i => (r i).wc).sum ∧
      s.cQc = ((List.range cs.length).map fun i => (r i).cQc).sum ∧
      (∀ u, s.AW u = ((List.range cs.length).map fun i => ventry (cs.getD i []) (r i).AW u).sum) ∧
      (∀ u, s.AQc u =
        ((List.range cs.length).map fun i => ventry (cs.getD i []) (r i).AQc u).sum) := by
  obtain ⟨s, h1, h2, h3, h4, h5⟩ := residLoop_spec rows r cs 0 (Resid.zero R) hnd hb
  refine ⟨s, h1, ?_, ?_, ?_, ?_⟩
  · rw [h2]; simp [Resid.zero]
  · rw [h3]; simp [Resid.zero]
  · intro u; rw [h4 u]; simp [Resid.zero]
  · intro u; rw [h5 u]; simp [Resid.zero]

/-- **C19 (other entry point).** The vectors computed together with the matrix, in elimination
order, are the same sums. -/
theorem C19_residuals_in_elimination_order {R : Type} [AddCommMonoid R] (cs duals : List (List Nat))
    (r : Nat → Resid R) (hnd : ∀ c ∈ cs, c.Nodup) (k : Kkt) (hk : kktInit cs duals = .ok k)
    (hb : ∀ c ∈ cs, ∀ x ∈ c, x < k.data.N) :
    ∃ s, kktResiduals k k.data.N r = .ok s ∧
      s.wc = ((List.range cs.length).map fun i => (r i).wc).sum ∧
      (∀ u, s.AW u = ((List.range cs.length).map fun i => ventry (cs.getD i []) (r i).AW u).sum) ∧
      (∀ u, s.AQc u =
        ((List.range cs.length).map fun i => ventry (cs.getD i []) (r i).AQc u).sum) := by
  unfold kktInit at hk
  cases hroot : getRootNode cs duals with
  | throws => rw [hroot] at hk; simp [Outcome.bind] at hk
  | ub => rw [hroot] at hk; simp [Outcome.bind] at hk
  | diverges => rw [hroot] at hk; simp [Outcome.bind] at hk
  | ok root =>
  rw [hroot] at hk
  simp only [Outcome.bind] at hk
  cases hd : getData cs (some (isEmptyVec duals)) root with
  | throws => rw [hd] at hk; simp at hk
  | ub => rw [hd] at hk; simp at hk
  | diverges => rw [hd] at hk; simp at hk
  | ok d =>
  rw [hd] at hk
  simp only [Outcome.ok.injEq] at hk
  subst hk
  obtain ⟨sn, sep, nv, D⟩ := getData_spec hnd hd
  have hol : d.cliqueOrder.length = cs.length := by simpa using D.perm.length_eq
  obtain ⟨s, h1, h2, h3, h4⟩ := kktResidLoop_spec d.N cs d.cliqueOrder r hnd hb
    (fun i hi => List.mem_range.1 (D.perm.mem_iff.1 hi)) cs.length (Resid.zero R) hol.ge
  rw [← hol, List.take_length] at h2 h3 h4
  have hs : ∀ f : Nat → R, (d.cliqueOrder.map f).sum = ((List.range cs.length).map f).sum :=
    fun f => (D.perm.map f).sum_eq
  refine ⟨s, ?_, ?_, ?_, ?_⟩
  · simp only [kktResiduals, Kkt.checkRows, ne_eq, not_true, if_false, Outcome.bind]
    exact h1
  · rw [h2, hs]; simp [Resid.zero]
  · intro u; rw [h3 u, hs]; simp [Resid.zero]
  · intro u; rw [h4 u, hs]; simp [Resid.zero]

/-- A concrete case of both: overlapping, unsorted index sets covering all unknowns. -/
example : (∀ c ∈ [[0, 1], [2, 1], [0]], c.Nodup) ∧ (∀ c ∈ [[0, 1], [2, 1], [0]], ∀ k ∈ c, k < 3) ∧
    (kktInit [[0, 1], [2, 1], [0]] [[], [], []]).toOption.map (·.data.N) = some 3 ∧
    (assembleResiduals 3 [[0, 1], [2, 1], [0]]
      (fun i => (⟨fun j => 10 * i + j, fun j => 5 * j, i, 1⟩ : Resid Int))).toOption.map
        (fun s => ([s.AW 0, s.AW 1, s.AW 2], [s.AQc 0, s.AQc 1, s.AQc 2], s.wc, s.cQc)) =
      some ([20, 12, 10], [0, 10, 0], 3, 3) := by
  refine ⟨by decide, by decide, by decide +kernel, by decide +kernel⟩

end Verif.Sup
