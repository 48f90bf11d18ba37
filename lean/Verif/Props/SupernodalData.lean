import Verif.Lemmas.GetData

/-!
# C15, C16: permutation and dimension of the factored system
-/

namespace Verif.Sup

open Verif.Clique Spec

/-- **C15.** For duplicate-free index sets: the permutation and its stored inverse are mutually
inverse between the unknowns that occur and the rows of the factored matrix; each block owns a
contiguous range of rows, in order; the remaining rows of its front are listed in increasing order
and form a well-formed pattern; and the labels kept for assembly name the same rows. -/
theorem C15_permutation (cs : List (List Nat)) (hnd : ∀ c ∈ cs, c.Nodup)
    (vl : Option (Nat → Bool)) (root : Int) (d : MatrixData) (h : getData cs vl root = .ok d) :
    (∀ i v : Nat, i < d.N → d.permutationInverse[i]? = some v →
      d.permutation[v]? = some i ∧ ∃ c ∈ cs, v ∈ c) ∧
    (∀ v, (∃ c ∈ cs, v ∈ c) → ∃ i : Nat, i < d.N ∧ d.permutation[v]? = some i ∧
      d.permutationInverse[i]? = some v) ∧
    d.N = d.supernodeSize.sum ∧ d.cliqueOrder.Perm (List.range cs.length) ∧
    (∃ seps, Pattern d.supernodeSize seps ∧
      (∀ (k : Nat), k < cs.length → ∃ (size : Nat) (s snl sepl : List Nat),
        d.supernodeSize[k]? = some size ∧ seps[k]? = some s ∧
        d.cliques[k]? = some (List.range' (start d.supernodeSize k) size ++ s) ∧
        d.snLabels[k]? = some snl ∧ d.sepLabels[k]? = some sepl ∧
        snl.map (fun v => d.permutation[v]?) =
          (List.range' (start d.supernodeSize k) size).map some ∧
        sepl.map (fun v => d.permutation[v]?) = s.map some)) := by
  obtain ⟨sn, sep, nv, D⟩ := getData_spec hnd h
  refine ⟨?_, ?_, ?_, D.perm, _, D.pattern, ?_⟩
  · intro i v hi hv
    rw [D.N] at hi
    have h1 := List.getElem?_eq_getElem hi
    have h2 := D.q _ _ h1
    rw [h2] at hv
    simp only [Option.some.injEq] at hv
    rw [hv] at h1
    have hm := List.mem_of_getElem? h1
    refine ⟨?_, (D.occurs v).2 hm⟩
    rw [D.p v hm, D.parts.posOf_getElem h1]
  · intro v hv
    have hm := (D.occurs v).1 hv
    exact ⟨_, by rw [D.N]; exact D.parts.posOf_lt hm, D.p v hm, D.q _ _ (getElem?_posOf hm)⟩
  · rw [D.N, D.sizes, sum_sizes]
  · intro k hk
    have hlen : d.cliqueOrder.length = cs.length := by simpa using D.perm.length_eq
    have hk' : k < d.cliqueOrder.length := by omega
    have ho := List.getElem?_eq_getElem hk'
    generalize d.cliqueOrder[k] = e at ho
    have heo := List.mem_of_getElem? ho
    have hr := D.parts.block_range (split_at ho)
    rw [← start_order, ← D.sizes] at hr
    refine ⟨(sn e).length, _, _, _, by rw [D.sizes]; simp [ho], by rw [List.getElem?_map, ho]; rfl,
      by rw [D.cliques, List.getElem?_map, ho, ← hr]; rfl, by rw [D.snLabels]; simp [ho]; rfl,
      by rw [D.sepLabels]; simp [ho]; rfl, ?_, ?_⟩
    · rw [← hr, List.map_map]
      exact List.map_congr_left (fun v hv => D.p v (D.parts.mem_flat heo hv))
    · rw [← D.parts.sepO_map heo, List.map_map]
      exact List.map_congr_left (fun v hv =>
        D.p v (D.parts.sepmem e heo v ((D.parts.sepO_perm heo).mem_iff.1 hv)))

/-- A concrete case: a cycle, an isolated block, unsorted index sets. -/
example : (∀ c ∈ [[3, 0], [0, 1], [1, 2], [2, 3], [7, 6]], c.Nodup) ∧
    (getData [[3, 0], [0, 1], [1, 2], [2, 3], [7, 6]] none 2).toOption.map
      (fun d => (d.permutation, d.permutationInverse, d.N, d.cliques)) =
    some ([3, 4, 5, 2, 0, 0, 0, 1], [6, 7, 3, 0, 1, 2, 0, 0], 6,
      [[0, 1], [2, 3], [2, 3, 5], [3, 4], [3, 4, 5]]) := by
  refine ⟨by decide, by decide +kernel⟩

open Verif.CM in
/-- **C16, as far as it holds.** For a program built through the public calls whose first constraint
mentions a variable: the solver can be constructed, and the dimension of the factored matrix equals
the size of the linear system *exactly if* every variable occurs in some constraint. In that case
right-hand sides of the reported size are accepted and `Pt` is a permutation of all unknowns;
otherwise every right-hand side of the reported size is rejected by an exception.
Missing for C16: programs with an unused variable (see `C16_violated`). -/
theorem C16_dimension_partial {κ : Type} (nv : Nat) (calls : List (Call κ)) (s : Manager κ)
    (h : (Manager.empty.setNumberOfVariables nv).run calls = .ok s)
    (h0 : ∃ c, s.cliques[0]? = some c ∧ c ≠ []) :
    ∃ k, kktInit s.cliques s.dualVars = .ok k ∧
      (k.data.N = s.sizeOfKKTSystem ↔ ∀ v, v < nv → ∃ c ∈ s.cliques, v ∈ c) ∧
      (k.checkRows s.sizeOfKKTSystem = .ok () ↔ ∀ v, v < nv → ∃ c ∈ s.cliques, v ∈ c) ∧
      (k.checkRows s.sizeOfKKTSystem = .throws ↔ ¬ ∀ v, v < nv → ∃ c ∈ s.cliques, v ∈ c) ∧
      (k.data.N = s.sizeOfKKTSystem → k.pt.Perm (List.range s.sizeOfKKTSystem)) := by
  have hi := (run_inv calls (inv_init nv) h).1
  obtain ⟨c0, hc0, hne⟩ := h0
  obtain ⟨hq, hlt⟩ := cliqueAt_of_getElem? hc0
  obtain ⟨r, hr, hrl⟩ := getRootNode_ok (vars := s.cliques) (duals := s.dualVars)
    (by rw [hi.lenC, hi.lenD]) (by rintro e; simp [e] at hlt)
  obtain ⟨d, hd⟩ := getData_ok hi.nodup (some (isEmptyVec s.dualVars)) (root := r)
    (by exact_mod_cast hrl) (by rw [hq]; exact hne)
  obtain ⟨sn, sep, m, D⟩ := getData_spec hi.nodup hd
  refine ⟨_, by simp only [kktInit, hr, Outcome.bind, hd]; rfl, ?_⟩
  have hK : s.sizeOfKKTSystem = s.dualStart := by rw [sizeOfKKTSystem_eq, ← hi.start]
  -- multipliers always occur
  have hmult : ∀ v, nv ≤ v → v < s.dualStart → ∃ c ∈ s.cliques, v ∈ c := by
    intro v h1 h2
    have hv : v ∈ s.dualVars.flatten := by
      rw [hi.duals, List.mem_range'_1]; omega
    obtain ⟨dv, hdv, hv⟩ := List.mem_flatten.1 hv
    obtain ⟨i, hil, rfl⟩ := List.getElem_of_mem hdv
    have hic : i < s.cliques.length := by rw [hi.lenC, ← hi.lenD]; exact hil
    have := hi.mults i _ _ (List.getElem?_eq_getElem hic) (List.getElem?_eq_getElem hil)
    rw [← this] at hv
    exact ⟨_, List.getElem_mem hic, (List.mem_filter.1 hv).1⟩
  have hsub : ∀ v ∈ d.cliqueOrder.flatMap sn, v < s.dualStart := by
    intro v hv
    obtain ⟨c, hc, hvc⟩ := (D.occurs v).2 hv
    exact hi.bound c hc v hvc
  have hsp : (d.cliqueOrder.flatMap sn).Subperm (List.range s.dualStart) :=
    D.parts.nodup.subperm (fun v hv => List.mem_range.2 (hsub v hv))
  have hle : nv ≤ s.dualStart := by
    rw [hi.start, Verif.CM.Spec.numUnknowns, hi.maxVars]; omega
  have key : d.N = s.sizeOfKKTSystem ↔ ∀ v, v < nv → ∃ c ∈ s.cliques, v ∈ c := by
    rw [D.N, hK]
    constructor
    · intro hlen v hv
      have hp : (d.cliqueOrder.flatMap sn).Perm (List.range s.dualStart) :=
        hsp.perm_of_length_le (by simp [hlen])
      exact (D.occurs v).2 (hp.mem_iff.2 (List.mem_range.2 (by omega)))
    · intro hall
      have hsp' : (List.range s.dualStart).Subperm (d.cliqueOrder.flatMap sn) := by
        refine List.nodup_range.subperm (fun v hv => ?_)
        rw [List.mem_range] at hv
        rw [← D.occurs v]
        by_cases hvn : v < nv
        · exact hall v hvn
        · exact hmult v (by omega) hv
      have h1 := hsp.length_le
      have h2 := hsp'.length_le
      simp only [List.length_range] at h1 h2
      omega
  refine ⟨key, ?_, ?_, ?_⟩
  · rw [← key]
    simp only [Kkt.checkRows]
    constructor
    · intro hh
      by_contra hcon
      rw [if_pos (fun e => hcon e.symm)] at hh
      simp at hh
    · intro hh; rw [if_neg (by simp [hh])]
  · rw [← key]
    simp only [Kkt.checkRows]
    constructor
    · intro hh hcon
      rw [if_neg (by simp [hcon])] at hh
      simp at hh
    · intro hh; rw [if_pos (fun e => hh e.symm)]
  · intro hN
    have hN' : (d.cliqueOrder.flatMap sn).length = s.dualStart := by rw [← D.N, ← hK]; exact hN
    have hpt : d.permutationInverse.take d.N = d.cliqueOrder.flatMap sn := by
      apply List.ext_getElem?
      intro i
      rw [List.getElem?_take]
      split_ifs with hlt
      · rw [D.N] at hlt
        rw [D.q _ _ (List.getElem?_eq_getElem hlt), List.getElem?_eq_getElem hlt]
      · rw [D.N] at hlt
        rw [List.getElem?_eq_none (by omega)]
    change (d.permutationInverse.take d.N).Perm _
    rw [hpt, hK]
    exact hsp.perm_of_length_le (by simp [hN'])

/-- The hypotheses of `C16_dimension_partial` on a program with an equality constraint. -/
example : ∃ s : Verif.CM.Manager Unit,
    (Verif.CM.Manager.empty.setNumberOfVariables 3).run
      [.addOn () [0, 1], .addEqOn () 2 [1, 2]] = .ok s ∧ s.cliques[0]? = some [0, 1] ∧
    (kktInit s.cliques s.dualVars).toOption.map (fun k => (k.data.N, k.pt)) =
      some (5, [0, 1, 2, 3, 4]) := ⟨_, rfl, rfl, by decide +kernel⟩

/-- **C16 is violated** (finding F3): variable 1 of this two-variable program occurs in no
constraint. The linear system has two unknowns, the factored matrix one row, and the solve throws. -/
theorem C16_violated :
    ∃ s : Verif.CM.Manager Unit,
      (Verif.CM.Manager.empty.setNumberOfVariables 2).run [.addOn () [0]] = .ok s ∧
      s.sizeOfKKTSystem = 2 ∧
      ∃ k, kktInit s.cliques s.dualVars = .ok k ∧ k.data.N = 1 ∧
        k.checkRows s.sizeOfKKTSystem = .throws :=
  ⟨_, rfl, rfl, _, rfl, rfl, rfl⟩

end Verif.Sup
