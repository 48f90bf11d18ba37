import Verif.Model.KktSolve
import Verif.Lemmas.BlockLdlt
import Verif.Lemmas.AssemblerTotal
import Mathlib.LinearAlgebra.FiniteDimensional.Basic
import Mathlib.LinearAlgebra.Matrix.ToLin

/-!
# Lemmas about the permuted solve
-/

namespace Verif.Sup

open Finset Spec Clique

variable {R : Type} [Field R]

/-- The matrix data of a constructed solver form a well-formed pattern, and `Pt` lists the unknowns
that occur, each once. -/
theorem kkt_pattern {cs duals : List (List Nat)} (hnd : ∀ c ∈ cs, c.Nodup)
    (hlen : duals.length = cs.length) {k : Kkt} (hk : kktInit cs duals = .ok k) :
    ∃ sp, Pattern k.data.supernodeSize sp ∧ IsPath k.data.supernodeSize sp k.data.cliques ∧
      k.data.supernodeSize ≠ [] ∧ k.data.N = k.data.supernodeSize.sum ∧ k.pt.Nodup ∧
      k.pt.length = k.data.N ∧ (∀ v, (∃ c ∈ cs, v ∈ c) ↔ v ∈ k.pt) ∧ k.duals = duals ∧
      k.cliques = cs := by
  unfold kktInit at hk
  cases hroot : getRootNode cs duals with
  | throws => rw [hroot] at hk; simp [Outcome.bind] at hk
  | ub => rw [hroot] at hk; simp [Outcome.bind] at hk
  | diverges => rw [hroot] at hk; simp [Outcome.bind] at hk
  | ok root =>
  rw [hroot] at hk
  simp only [Outcome.bind] at hk
  cases hd : getData cs (some (isEmptyVec duals)) root with
  | throws => rw [hd] at hk; simp at hk
  | ub => rw [hd] at hk; simp at hk
  | diverges => rw [hd] at hk; simp at hk
  | ok d =>
  rw [hd] at hk
  simp only [Outcome.ok.injEq] at hk
  subst hk
  obtain ⟨sn, sep, nv, D⟩ := getData_spec hnd hd
  have P := D.pattern
  have hol : d.cliqueOrder.length = cs.length := by simpa using D.perm.length_eq
  have hszl : d.supernodeSize.length = cs.length := by rw [D.sizes, List.length_map, hol]
  have hne : cs ≠ [] := by
    rintro rfl
    cases duals with
    | nil => simp [getRootNode] at hroot
    | cons _ _ => simp at hlen
  have hszne : d.supernodeSize ≠ [] := by
    intro h0
    rw [h0] at hszl
    exact hne (List.length_eq_zero_iff.1 (by simpa using hszl.symm))
  have hpath : IsPath d.supernodeSize (d.cliqueOrder.map (sepP d.cliqueOrder sn sep)) d.cliques := by
    refine ⟨by rw [D.cliques, List.length_map, hol, hszl], ?_⟩
    intro e size s h1 h2
    have hel : e < d.cliqueOrder.length := by
      have := (List.getElem?_eq_some_iff.1 h1).1; omega
    have he := List.getElem?_eq_getElem hel
    generalize d.cliqueOrder[e] = i at he
    have hr := D.parts.block_range (split_at he)
    rw [← start_order, ← D.sizes] at hr
    rw [D.sizes, List.getElem?_map, he] at h1
    rw [List.getElem?_map, he] at h2
    simp only [Option.map_some, Option.some.injEq] at h1 h2
    rw [D.cliques, List.getElem?_map, he, ← h1, ← h2, ← hr]
    rfl
  have hN : d.N = d.supernodeSize.sum := by rw [D.N, D.sizes, sum_sizes]
  have hpt : d.permutationInverse.take d.N = d.cliqueOrder.flatMap sn := by
    have hqn : (d.cliqueOrder.flatMap sn).length ≤ d.permutationInverse.length := by
      by_contra hcon
      have hlt : d.permutationInverse.length < (d.cliqueOrder.flatMap sn).length := by omega
      have := D.q d.permutationInverse.length _ (List.getElem?_eq_getElem hlt)
      simp at this
    apply List.ext_getElem
    · rw [List.length_take, D.N]; omega
    · intro i h1 h2
      have := D.q i _ (List.getElem?_eq_getElem h2)
      rw [List.getElem_take]
      exact (List.getElem?_eq_some_iff.1 this).2
  refine ⟨_, P, hpath, hszne, hN, ?_, ?_, ?_, rfl, rfl⟩
  · rw [hpt]; exact D.parts.nodup
  · simp only [hpt]; exact D.N.symm
  · intro v; simp only [hpt]; exact D.occurs v

section Permuted

variable {k : Kkt} {N : Nat} {M K : Nat → Nat → R} {apply : (Nat → R) → Nat → R}

theorem idx_lt (hpt : k.pt.Perm (List.range N)) {u : Nat} (hu : u < N) : k.pt.idxOf u < N := by
  have h : u ∈ k.pt := hpt.mem_iff.2 (List.mem_range.2 hu)
  have := List.idxOf_lt_length_of_mem h
  rwa [hpt.length_eq, List.length_range] at this

theorem getD_idx (hpt : k.pt.Perm (List.range N)) {u : Nat} (hu : u < N) :
    k.pt.getD (k.pt.idxOf u) 0 = u := by
  have h : u ∈ k.pt := hpt.mem_iff.2 (List.mem_range.2 hu)
  have hl := List.idxOf_lt_length_of_mem h
  rw [List.getD_eq_getElem?_getD, List.getElem?_eq_getElem hl]
  simp

theorem getD_lt (hpt : k.pt.Perm (List.range N)) {i : Nat} (hi : i < N) : k.pt.getD i 0 < N := by
  have hl : i < k.pt.length := by rw [hpt.length_eq, List.length_range]; exact hi
  rw [List.getD_eq_getElem?_getD, List.getElem?_eq_getElem hl]
  exact List.mem_range.1 (hpt.mem_iff.1 (List.getElem_mem hl))

theorem idx_getD (hpt : k.pt.Perm (List.range N)) {i : Nat} (hi : i < N) :
    k.pt.idxOf (k.pt.getD i 0) = i := by
  have hl : i < k.pt.length := by rw [hpt.length_eq, List.length_range]; exact hi
  rw [List.getD_eq_getElem?_getD, List.getElem?_eq_getElem hl]
  exact (hpt.nodup_iff.2 List.nodup_range).idxOf_getElem i hl

theorem sum_idx (hpt : k.pt.Perm (List.range N)) (f : Nat → R) :
    ∑ v ∈ range N, f (k.pt.idxOf v) = ∑ j ∈ range N, f j := by
  refine Finset.sum_nbij' (fun v => k.pt.idxOf v) (fun i => k.pt.getD i 0) ?_ ?_ ?_ ?_ ?_
  · intro v hv; exact mem_range.2 (idx_lt hpt (mem_range.1 hv))
  · intro v hv; exact mem_range.2 (getD_lt hpt (mem_range.1 hv))
  · intro v hv; exact getD_idx hpt (mem_range.1 hv)
  · intro v hv; exact idx_getD hpt (mem_range.1 hv)
  · intro v _; rfl

theorem permuted_solve (hpt : k.pt.Perm (List.range N))
    (hM : ∀ b i, i < N → ∑ j ∈ range N, M i j * apply b j = b i)
    (hK : ∀ u v, u < N → v < N → K u v = M (k.pt.idxOf u) (k.pt.idxOf v)) (b : Nat → R) {u : Nat}
    (hu : u < N) :
    ∑ v ∈ range N, K u v * unpermute k (apply (permute k b)) v = b u := by
  have h := hM (permute k b) (k.pt.idxOf u) (idx_lt hpt hu)
  have e : ∑ v ∈ range N, K u v * unpermute k (apply (permute k b)) v =
      ∑ v ∈ range N, (fun j => M (k.pt.idxOf u) j * apply (permute k b) j) (k.pt.idxOf v) :=
    Finset.sum_congr rfl fun v hv => by
      rw [hK u v hu (mem_range.1 hv)]; rfl
  rw [e, sum_idx hpt (fun j => M (k.pt.idxOf u) j * apply (permute k b) j), h, permute, getD_idx hpt hu]

/-- A square system that is solvable for every right-hand side has only the zero solution for the zero
right-hand side. -/
theorem kernel_zero (hM : ∀ b i, i < N → ∑ j ∈ range N, M i j * apply b j = b i) {y : Nat → R}
    (hy : ∀ i, i < N → ∑ j ∈ range N, M i j * y j = 0) : ∀ i, i < N → y i = 0 := by
  let A : Matrix (Fin N) (Fin N) R := fun i j => M i j
  have hs : Function.Surjective (Matrix.mulVecLin A) := by
    intro b
    refine ⟨fun j => apply (fun i => if h : i < N then b ⟨i, h⟩ else 0) j, ?_⟩
    funext i
    have := hM (fun i => if h : i < N then b ⟨i, h⟩ else 0) i i.2
    rw [← Fin.sum_univ_eq_sum_range
      (fun j => M i j * apply (fun i => if h : i < N then b ⟨i, h⟩ else 0) j)] at this
    refine Eq.trans ?_ (this.trans (by simp))
    rfl
  have hi := LinearMap.injective_iff_surjective.2 hs
  have h0 : Matrix.mulVecLin A (fun j => y j) = Matrix.mulVecLin A 0 := by
    rw [map_zero]
    funext i
    have := hy i i.2
    rw [← Fin.sum_univ_eq_sum_range (fun j => M i j * y j)] at this
    exact this
  intro i h
  exact congrFun (hi h0) ⟨i, h⟩

/-- Refinement does not change an exact solution. -/
theorem refine_exact (hpt : k.pt.Perm (List.range N)) (hN : k.data.N = N)
    (hM : ∀ b i, i < N → ∑ j ∈ range N, M i j * apply b j = b i)
    (b : Nat → R) : ∀ (n : Nat) (x : Nat → R), (∀ u, u < N → ∑ v ∈ range N, K u v * x v = b u) →
      ∀ u, u < N → refine k K apply b n x u = x u := by
  intro n
  induction n with
  | zero => intro x _ u _; rfl
  | succ n ih =>
    intro x hx u hu
    have hstep : ∀ u, u < N → refineStep k K apply b x u = x u := by
      intro u hu
      unfold refineStep
      simp only [hN]
      rw [add_eq_left]
      unfold unpermute
      refine kernel_zero hM ?_ _ (idx_lt hpt hu)
      intro i hi
      rw [hM _ i hi, permute, hx _ (getD_lt hpt hi), sub_self]
    rw [refine, ih _ ?_ u hu, hstep u hu]
    intro u hu
    rw [← hx u hu]
    exact Finset.sum_congr rfl fun v hv => by rw [hstep v (mem_range.1 hv)]

end Permuted

end Verif.Sup
