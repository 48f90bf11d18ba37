import Verif.Lemmas.Layout
import Verif.Props.Solve

/-!
# Properties of the solver memory (C09, C10)
-/

namespace Verif.Layout

open Spec

/-- **C09**: the buffer of a program is divided into disjoint regions inside of the buffer, aligned
where this is required, for every list of constraints (with at least one component besides the first
for second-order cones). -/
theorem C09_partition_partial (cs : List (Space × Nat)) (hcs : ∀ c ∈ cs, c.1 ≠ .soc 0)
    (maxIter M old : Nat) :
    Valid (bufferSize old (workspaces cs maxIter M)) (layout cs maxIter M).flatten := by
  have hw : ∀ w ∈ workspaces cs maxIter M, w ≠ .soc 0 := by
    intro w hw
    simp only [workspaces, List.mem_append, List.mem_flatMap, List.mem_cons, List.not_mem_nil,
      or_false] at hw
    rcases hw with ⟨c, hc, rfl | rfl⟩ | rfl | rfl
    · exact hcs c hc
    all_goals simp
  have hch := bind_chain _ hw 0
  refine ⟨fun r hr => ?_, hch.disjoint, bind_aligned _ 0 (Nat.dvd_zero 2)⟩
  have h1 := (hch.bounds r hr).2
  unfold bufferSize
  split_ifs <;> omega

/-- Each name gets as many doubles as it needs. -/
theorem C09_sizes (cs : List (Space × Nat)) (maxIter M : Nat) :
    (layout cs maxIter M).map (List.map Region.len) = (workspaces cs maxIter M).map needs :=
  bind_lengths _ 0

/-- A linear inequality, a second-order cone and an equality constraint. -/
example : (∀ c ∈ [(Space.linear 3 2, 2), (.soc 2, 2), (.empty, 3)], c.1 ≠ .soc 0) ∧
    layout [(.linear 3 2, 2), (.soc 2, 2), (.empty, 3)] 5 3 =
      [[⟨0, 3, true⟩, ⟨4, 3, true⟩, ⟨8, 3, true⟩, ⟨12, 6, true⟩],
       [⟨20, 2, true⟩, ⟨24, 2, true⟩, ⟨28, 4, true⟩],
       [⟨32, 2, true⟩, ⟨36, 2, true⟩, ⟨40, 2, true⟩, ⟨44, 2, true⟩, ⟨48, 1, false⟩],
       [⟨52, 2, true⟩, ⟨56, 2, true⟩, ⟨60, 4, true⟩], [],
       [⟨64, 3, true⟩, ⟨68, 3, true⟩, ⟨72, 9, true⟩],
       [⟨84, 5, false⟩, ⟨89, 5, false⟩, ⟨94, 1, false⟩, ⟨95, 1, false⟩],
       [⟨96, 3, true⟩, ⟨100, 3, true⟩]] ∧
    bufferSize 7 (workspaces [(.linear 3 2, 2), (.soc 2, 2), (.empty, 3)] 5 3) = 104 := by
  decide

/-- A second-order cone with a single component has a workspace of size 0, and its `W0` is the
first entry of the right-hand side of its own linear system; so the full statement of C09 fails. -/
theorem C09_soc_single_violated (m maxIter M old : Nat) (hm : m ≠ 0) :
    ¬ Valid (bufferSize old (workspaces [(.soc 0, m)] maxIter M))
      (layout [(.soc 0, m)] maxIter M).flatten := by
  intro h
  have h1 := h.disjoint
  have e : layout [(.soc 0, m)] maxIter M =
      [⟨0, 0, true⟩, ⟨0, 0, true⟩, ⟨0, 0, true⟩, ⟨0, 0, true⟩, ⟨0, 1, false⟩] ::
        (⟨0, m, true⟩ :: ([⟨alignedSize m, m, true⟩, ⟨2 * alignedSize m, m * m, true⟩] :
          List Region)) ::
        bind [.stats maxIter, .schur M true] (Space.size (.schur m false)) := by
    simp [layout, workspaces, bind, Space.regions, Space.size, alignedSize]
  rw [e] at h1
  simp only [List.flatten_cons, List.cons_append, List.nil_append, List.pairwise_cons] at h1
  exact h1.2.2.2.2.1 ⟨0, m, true⟩ (by simp) ⟨0, by simp, by simp; omega⟩

/-- The write of iteration `i` lands in the array of the statistics, and in no other region, as long
as the iteration number is below the limit for which the statistics were allocated. -/
theorem C10_slot_partial (cs : List (Space × Nat)) (hcs : ∀ c ∈ cs, c.1 ≠ .soc 0) (cap M i : Nat)
    (hi : i < cap) :
    (⟨statsOffset cs 0, cap, false⟩ : Region) ∈ (layout cs cap M).flatten ∧
    ∀ r ∈ (layout cs cap M).flatten, r.start ≤ statsOffset cs i → statsOffset cs i < r.start + r.len →
      r = ⟨statsOffset cs 0, cap, false⟩ := by
  have hw : ∀ w ∈ cs.flatMap (fun c => [c.1, Space.schur c.2 false]), w ≠ .soc 0 := by
    intro w hw
    simp only [List.mem_flatMap, List.mem_cons, List.not_mem_nil, or_false] at hw
    rcases hw with ⟨c, hc, rfl | rfl⟩
    · exact hcs c hc
    · simp
  have hch := bind_chain _ hw 0
  unfold layout workspaces statsOffset
  rw [bind_append]
  simp only [List.flatten_append, List.mem_append]
  generalize sizeOf (cs.flatMap fun c => [c.1, Space.schur c.2 false]) = p at *
  constructor
  · right
    simp [bind, Space.regions]
  · rintro r (hr | hr) h1 h2
    · have := (hch.bounds r hr).2
      omega
    · simp only [bind, List.flatten_cons, List.mem_append, Space.regions, List.mem_cons,
        List.not_mem_nil, or_false, List.flatten_nil, Space.size, Nat.zero_add, if_true] at hr
      rcases hr with (rfl | rfl | rfl | rfl) | (rfl | rfl)
      · rfl
      all_goals
        simp only at h1 h2
        omega

example : 2 < 5 ∧ ∀ c ∈ [(Space.linear 3 2, 2)], c.1 ≠ .soc 0 := by decide

/-- When a solve with a larger limit re-uses the statistics allocated for `cap` iterations, iteration
`2 cap` overwrites the scaling of the cost, iteration `2 cap + 1` the scaling of the linear cost, and
the next ones the right-hand side `AW` of the residuals. -/
theorem C10_overrun_violated (cs : List (Space × Nat)) (cap M : Nat) :
    ∃ w v : List (List Region), layout cs cap M =
        w ++ [[⟨statsOffset cs 0, cap, false⟩, ⟨statsOffset cs cap, cap, false⟩,
          ⟨statsOffset cs (2 * cap), 1, false⟩, ⟨statsOffset cs (2 * cap + 1), 1, false⟩],
          ⟨statsOffset cs (2 * cap + 2), M, true⟩ :: v.flatten] := by
  refine ⟨bind (cs.flatMap fun c => [c.1, Space.schur c.2 false]) 0,
    [[⟨statsOffset cs (2 * cap + 2) + alignedSize M, M, true⟩]], ?_⟩
  unfold layout workspaces statsOffset
  rw [bind_append]
  congr 1
  simp only [bind, Space.regions, Space.size, Nat.zero_add, Nat.one_mul, Nat.mul_one, if_true,
    List.append_nil, List.flatten_cons, List.flatten_nil, Nat.add_assoc, Nat.add_zero, Nat.mul_comm]

end Verif.Layout

namespace Verif.SolveLoop

variable {R : Type} [Field R] [LinearOrder R] [IsStrictOrderedRing R]
variable {sqrt : R → R} {cfg : Config R} {o : Oracle R} {p : Prog R}

/-- A solve of a program that was solved before, with an iteration limit at most that for which the
statistics were allocated, performs no write outside of the statistics (nor any other undefined
operation of the model). -/
theorem C10_same_limit_partial (hk : 0 ≤ kMin sqrt cfg) (hm : cfg.mode ≠ 0)
    (hp : p.initialized = true) {st : Stats R} (hst : p.stats = some st) (hb : st.bScale.isSome)
    (hc : st.cScale.isSome) (hn : st.numIter.isSome) (hcap : cfg.maxIter ≤ st.cap) :
    ∃ r, solve sqrt p cfg o = .ok r := by
  by_cases ha : p.quadratic = false ∨ (cfg.lineSearch = true ∧ cfg.rescaling = false)
  swap
  · unfold solve
    rw [if_pos ha]
    exact ⟨_, rfl⟩
  unfold solve
  rw [if_neg (not_not.2 ha)]
  by_cases h0 : p.constraints = 0
  · have h0' : (clearStatus p).constraints = 0 := h0
    simp only [h0', if_true]
    exact ⟨_, rfl⟩
  have h0' : ¬ (clearStatus p).constraints = 0 := h0
  have hi : initProgram (clearStatus p) cfg = clearStatus p := by
    unfold initProgram
    rw [if_neg]
    simp [clearStatus, hp, hm]
  have hs : (clearStatus p).stats = some st := hst
  simp only [h0', if_false, hi, hs]
  obtain ⟨c, s, hl⟩ := loop_ok (sqrt := sqrt) (cfg := cfg) (q := (clearStatus p).quadratic) (o := o)
    hb hc hcap
  simp only [hl, Outcome.bind_ok]
  cases c with
  | fail => exact ⟨_, rfl⟩
  | demand => exact ⟨_, rfl⟩
  | next => exact absurd (exit_loop hk hl) (by simp [Exit])
  | brk =>
    obtain ⟨i, -, hI, -⟩ := exit_loop hk hl
    obtain ⟨c, hc⟩ := Option.isSome_iff_exists.1 (loop_scales hb hc hcap hl)
    have hnum : s.stats.numIter.isSome := by
      cases hlc : Spec.lastCompleted s.trace with
      | none => rw [(hI.onNone hlc).1]; exact hn
      | some j => rw [(hI.onSome j hlc).1]; rfl
    obtain ⟨n, hn⟩ := Option.isSome_iff_exists.1 hnum
    unfold post output
    simp only [hn, hc, readVar, Outcome.bind_ok]
    split_ifs <;> exact ⟨_, rfl⟩

/-- Two solves of the example, the second one a warm start with the same limit. -/
example : ((solve exSqrt exProg exCfg exOracle).toOption.bind fun r => r.prog.stats.map fun st =>
      (r.prog.initialized, st.bScale.isSome, st.cScale.isSome, st.numIter.isSome,
        decide (exCfg.maxIter ≤ st.cap))) = some (true, true, true, true, true) := by
  decide +kernel

end Verif.SolveLoop
