import Verif.Lemmas.EquationsRun
import Verif.Props.MatrixPath

/-!
# An example for C100

A program with two linear inequalities and an equation, whose iterations replace no pivots.
-/

namespace Verif.MatrixCentering

open Finset Verif.Dual Iteration.Spec
open Gap.Spec (Feasible objective System Separate)
open Spec (Short CommonUpdate CentralOn Equations ReadyOn distance unknowns)

/-- Maximise `3 y₀ + y₂` subject to `y₂ ≤ 1`, `y₀ ≤ 3/2` and `y₀ = 1/2` with multiplier `y₁`. -/
noncomputable def exOn (W t l : Nat → ℝ) : List (Entry ℝ) :=
  [⟨[2, 0], .linear ⟨2, 2, fun i j => if i = j then 1 else 0, fun i => if i = 0 then 1 else 3 / 2⟩
     ⟨W, fun _ => 0, t⟩⟩,
   ⟨[0, 1], .equality ⟨1, 1, 1, fun _ _ => 1, fun _ => 1 / 2, l⟩⟩]

/-- The result of the symbolic analysis. -/
def exOnKkt : Sup.Kkt :=
  ⟨[[2, 0], [0, 1]], [[], [1]], ⟨[[0, 1], [1, 2]], [[2], [0, 1]], [[0], []], [1, 2], [1, 2, 0], [2, 0, 1], [0, 1], 3⟩,
    [[0], [0, 1]], [[1], []], [2, 0, 1]⟩

theorem exOnKkt_init : Sup.kktInit [[2, 0], [0, 1]] [[], [1]] = .ok exOnKkt := rfl

/-- The setup. -/
noncomputable def exOnSetup : Iteration.Setup ℝ :=
  ⟨3, fun u => if u = 0 then 3 else if u = 2 then 1 else 0, 1, 1, exOnKkt, false, 1, Sup.realLlt, fun _ _ b => b⟩

/-- The central point. -/
noncomputable def exOnY (u : Nat) : ℝ := if u = 0 then 1 / 2 else if u = 1 then 2 else 0

theorem exOn_ready (W t l : Nat → ℝ) (hW : ∀ i < 2, 1 / 10 ≤ W i ∧ W i ≤ 10) (sys : List (Schur.Sys ℝ)) (hs : sys.map Schur.Sys.rows = [2, 2]) (m : Sup.Store ℝ) :
    ReadyOn exOnSetup [[], [1]] ⟨exOn W t l, sys, m⟩ := by
  refine ⟨⟨exOnKkt_init, Sup.realLlt_contract, rfl, rfl, ?_,
    Sup.noShift_of_bounded (n := 2) (by decide +kernel) (by decide +kernel), ?_⟩, ⟨[1], by simp, by simp⟩, by decide, ?_, ?_, hs, ?_⟩
  · intro i c dv h1 h2
    have : i = 0 ∨ i = 1 := by
      have := (List.getElem?_eq_some_iff.1 h2).1
      simp at this
      omega
    rcases this with rfl | rfl
    · cases h2
      exact ⟨c, by simp⟩
    · cases h1
      cases h2
      exact ⟨[0], rfl⟩
  · intro u
    simp [exOn, exOnSetup]
    omega
  · intro e he
    simp only [exOn, List.mem_cons, List.not_mem_nil, or_false] at he
    rcases he with rfl | rfl
    · exact ⟨by simp, by simp [exOnSetup], rfl, fun i hi => lt_of_lt_of_le (by norm_num) (hW i hi).1⟩
    · exact ⟨by simp, by simp [exOnSetup], rfl, rfl⟩
  · intro e he
    simp only [exOn, List.mem_cons, List.not_mem_nil, or_false] at he
    rcases he with rfl | rfl
    · exact Or.inl two_pos
    · exact Or.inr ⟨_, rfl⟩
  · intro i e o hi ho r hr
    have : i = 0 ∨ i = 1 := by
      have := (List.getElem?_eq_some_iff.1 hi).1
      simp [exOn] at this
      omega
    rcases this with rfl | rfl
    · cases hi
      cases ho
    · cases hi
      cases ho
      obtain rfl : r = 0 := by
        simp at hr
        exact hr
      refine ⟨by simp [exOnSetup], fun j e' hj hne => ?_⟩
      have : j = 0 := by
        have := (List.getElem?_eq_some_iff.1 hj).1
        simp [exOn] at this
        omega
      subst this
      cases hj
      simp

theorem exOn_central (W t l : Nat → ℝ) : CentralOn (exOn W t l) 3 (fun u => 1 * 1 * exOnSetup.b u) (1 * 1) exOnY := by
  refine ⟨fun e he => ?_, fun e he o ho r hr => ?_, fun u hu => ?_⟩
  · simp only [exOn, List.mem_cons, List.not_mem_nil, or_false] at he
    rcases he with rfl | rfl
    · intro r hr
      have : r = 0 ∨ r = 1 := by
        have : r < 2 := hr
        omega
      rcases this with rfl | rfl <;>
      · simp [Spin.Spec.Interior, Spec.cellSlack, ConeCentering.Spec.affine, ConeCentering.Spec.column, unknowns, exOnY,
          ConeCentering.Spec.form, sum_range_succ]
        try norm_num
    · intro r hr
      exact absurd hr (Nat.not_lt_zero r)
  · simp only [exOn, List.mem_cons, List.not_mem_nil, or_false] at he
    rcases he with rfl | rfl
    · cases ho
    · cases ho
      simp [unknowns, exOnY]
  · have : u = 0 ∨ u = 1 ∨ u = 2 := by omega
    rcases this with rfl | rfl | rfl <;>
    · simp [exOn, sum_range_succ, Whole.Spec.nth, Sup.Spec.ventry, Spec.force, Spec.reaction, ConeCentering.Spec.cells,
        ConeCentering.Spec.pair, ConeCentering.Spec.column, ConeCentering.Spec.inverse, ConeCentering.Spec.det,
        ConeCentering.Spec.form, Spec.cellSlack, ConeCentering.Spec.affine, unknowns, exOnY, exOnSetup,
        Centering.Spec.gradient]
      try norm_num

/-- The factorization of its matrix. -/
theorem exOn_ldlt {w : Sup.Workspace} (hw : Sup.workspaceInit [[0, 1], [1, 2]] [1, 2] = .ok w) {m : Sup.Store ℝ} {a c : ℝ}
    (ha : 1 / 100 ≤ a) (hc : 1 / 100 ≤ c) (hc' : c ≤ 100) (h1 : m (.diag 0 0 0) = a) (h2 : m (.off 0 0 0) = 0) (h3 : m (.diag 1 0 0) = c) (h4 : m (.diag 1 1 0) = 1)
    (h5 : m (.diag 1 1 1) = 0) {F : Sup.LdltStore ℝ} (hF : Sup.blockLdlt w m = .ok F) : F.reg = false := by
  have e1 : w.sizes.length = 2 := by
    cases hw
    rfl
  have e2 : w.size 0 = 1 := by
    cases hw
    rfl
  have e3 : w.size 1 = 2 := by
    cases hw
    rfl
  have e4 : w.sep 0 = [1] := by
    cases hw
    rfl
  have e5 : w.sep 1 = [] := by
    cases hw
    rfl
  have e6 : w.sepCells 0 = .ok [.diag 1 0 0] := by
    cases hw
    rfl
  clear hw
  have hlp : Sup.lowerPairs [0] = [(0, 0)] := rfl
  have ha0 : 0 < a := lt_of_lt_of_le (by norm_num) ha
  have hc0 : 0 < c := lt_of_lt_of_le (by norm_num) hc
  have h0 : Dense.eps ≤ a := le_trans (by norm_num [Dense.eps]) ha
  have hp0 : Dense.permOf [0] 0 = 0 := by simp [Dense.permOf]
  rw [Sup.blockLdlt, e1, Sup.ldltBlocks] at hF
  cases hF₁ : Sup.ldltBlocks w m 1 with
  | ok F₁ =>
    rw [hF₁] at hF
    -- the first block
    have k : F₁.reg = false ∧ ∀ r c, F₁.S (.diag 1 r c) = m (.diag 1 r c) := by
      simp only [Sup.ldltBlocks, Sup.ldltBlock, Outcome.bind, e2, e4, e6, Dense.ldlt, List.length_cons, List.length_nil,
        Nat.zero_add, one_ne_zero, or_self, if_false, Outcome.ok.injEq] at hF₁
      rw [← hF₁]
      refine ⟨by simp [Sup.diagOf, h1, h0, abs_of_pos ha0], fun r c => ?_⟩
      simp [Sup.subtractProducts, hlp, Sup.Store.set, Sup.setDiagLower, Sup.setOff, Sup.diagOf, Dense.fsub, hp0, h2]
      rintro rfl rfl
      rfl
    obtain ⟨k1, k2⟩ := k
    simp only [Sup.ldltBlock, Outcome.bind, e3, e5, Dense.ldlt, List.length_nil, or_true, if_true, Outcome.ok.injEq] at hF
    rw [← hF]
    have h6 : Dense.eps < c := lt_of_lt_of_le (by norm_num [Dense.eps]) hc
    have h7 : Dense.eps < c⁻¹ := by
      rw [lt_inv_comm₀ (by norm_num [Dense.eps]) hc0]
      exact lt_of_le_of_lt hc' (by norm_num [Dense.eps])
    have h8 : Dense.pivotIndex 2 0 (Sup.diagOf F₁.S 1) = 0 := by
      simp [Dense.pivotIndex, Sup.diagOf, k2, h3, h5, List.range'_succ]
    have h9 : ∀ M : Nat → Nat → ℝ, Dense.pivotIndex 2 1 M = 1 := fun M => by
      simp [Dense.pivotIndex, List.range'_succ]
    simp [k1, Dense.ldltLoop, Dense.ldltStep, h8, h9, Dense.pivotSwap, Dense.schurPivot, Dense.pivotReg,
      Dense.eliminateCol, Sup.diagOf, k2, h3, h4, h5, h6, h7, hc0.ne', abs_of_pos hc0]
  | ub => simp [hF₁, Outcome.bind] at hF
  | throws => simp [hF₁, Outcome.bind] at hF
  | diverges => simp [hF₁, Outcome.bind] at hF

/-- In its iterations no pivot is replaced, as long as the scaling points are bounded. -/
theorem exOn_next (tri : List ℝ → List ℝ → List ℝ) (W t l : Nat → ℝ) (hW : ∀ i < 2, 1 / 10 ≤ W i ∧ W i ≤ 10)
    (x x' : Iteration.State ℝ) (hx : x.es = exOn W t l)
    (hs : x.sys.map Schur.Sys.rows = [2, 2]) (st : Iteration.Step ℝ)
    (h : Iteration.iterate { Gap.exEnv with tri := tri } exOnSetup 1 x = .ok (some (st, x'))) :
    Unregularized st ∧ x'.sys.map Schur.Sys.rows = [2, 2] ∧ ∃ W' t' l', x'.es = exOn W' t' l' := by
  obtain ⟨es, sys, mat⟩ := x
  simp only at hx hs
  subst hx
  have hr := exOn_ready W t l hW sys hs mat
  have w0 := hW 0 two_pos
  have w1 := hW 1 one_lt_two
  obtain ⟨w, m, r, solver, es', h1, h2, h3, h4, h5, h6, h7, h8, h9, -⟩ := Iteration.iterate_ok h
  obtain ⟨s0, s1, rfl⟩ := List.length_eq_two.1 (by simpa using congrArg List.length hs : sys.length = 2)
  simp only [List.map_cons, List.map_nil, List.cons.injEq, and_true] at hs
  -- the contributions
  obtain ⟨t0, t1, ht0, ht1, hsys⟩ : ∃ t0 t1, Linear.schur
      ⟨2, 2, fun i j => if i = j then 1 else 0, fun i => if i = 0 then 1 else 3 / 2⟩ W true s0 = .ok t0 ∧
      Equality.schur ⟨1, 1, 1, fun _ _ => 1, fun _ => 1 / 2, l⟩ true s1 = .ok t1 ∧ x'.sys = [t0, t1] := by
    simp only [exOn, Iteration.schurAll, Item.schur, SolveLoop.bind_eq_ok, Outcome.ok.injEq] at h1
    obtain ⟨t0, ht0, q, ⟨t1, ht1, q', rfl, rfl⟩, hq⟩ := h1
    exact ⟨t0, t1, ht0, ht1, hq.symm⟩
  have r0 : t0.rows = 2 ∧ t0.G 0 0 = W 0 * W 0 ∧ t0.G 0 1 = 0 ∧ t0.G 1 0 = 0 ∧ t0.G 1 1 = W 1 * W 1 := by
    simp [Linear.schur, hs.1, sum_range_succ] at ht0
    rw [← ht0]
    simp [Schur.setTopLeft]
  have r1 : t1.rows = 2 ∧ t1.G 0 0 = 0 ∧ t1.G 0 1 = 1 ∧ t1.G 1 0 = 1 ∧ t1.G 1 1 = 0 := by
    simp [Equality.schur, hs.2, Schur.Sys.setZero] at ht1
    rw [← ht1]
    simp [Equality.setTopRight, Equality.setBottomLeft]
  have hun : Unregularized st := by
    intro F hF
    rw [h6] at hF
    obtain ⟨w', m', e1, e2⟩ := Sup.C18_assembly_partial [[2, 0], [0, 1]] [[], [1]] (by decide) rfl hr.built.last exOnKkt
      exOnKkt_init hr.built.noShift (fun i => (Iteration.sysAt x'.sys i).G) mat
    have e3 := h2.symm.trans e1
    rw [Outcome.ok.injEq, Prod.mk.injEq] at e3
    obtain ⟨rfl, rfl⟩ := e3
    have hw : Sup.workspaceInit [[0, 1], [1, 2]] [1, 2] = .ok w := Sup.assemble_workspace h2
    have hval : ∀ (u v : Nat) (c : Sup.Cell), (∃ c ∈ [[2, 0], [0, 1]], u ∈ c) → (∃ c ∈ [[2, 0], [0, 1]], v ∈ c) →
        Sup.kktMatrix exOnKkt w m u v = .ok (m c) →
        m c = Sup.Spec.total [[2, 0], [0, 1]] (fun i => (Iteration.sysAt x'.sys i).G) u v := fun u v c hu hv h => by
      have := h.symm.trans (e2 u v hu hv)
      rwa [Outcome.ok.injEq] at this
    have g0 := hval 2 2 (.diag 0 0 0) (by decide) (by decide) (by cases hw; rfl)
    have g1 := hval 2 0 (.off 0 0 0) (by decide) (by decide) (by cases hw; rfl)
    have g2 := hval 0 0 (.diag 1 0 0) (by decide) (by decide) (by cases hw; rfl)
    have g3 := hval 1 0 (.diag 1 1 0) (by decide) (by decide) (by cases hw; rfl)
    have g4 := hval 1 1 (.diag 1 1 1) (by decide) (by decide) (by cases hw; rfl)
    simp [Sup.Spec.total, Sup.Spec.entry, Iteration.sysAt, hsys, List.range_succ, r0, r1] at g0 g1 g2 g3 g4
    have hfac : Sup.blockLdlt w m = .ok F := by
      unfold Sup.Solver.factor Sup.Solver.factorCore Sup.Solver.save at h4
      simp [exOnSetup, exOnKkt] at h4
      cases hb : Sup.blockLdlt w m with
      | ok F' =>
        rw [hb] at h4
        simp only [Outcome.bind, Outcome.ok.injEq, Option.some.injEq] at h4
        rw [← h4] at hF
        simp only [Option.some.injEq, Sup.Fact.ldlt.injEq] at hF
        rw [hF]
      | ub => simp [hb, Outcome.bind] at h4
      | throws => simp [hb, Outcome.bind] at h4
      | diverges => simp [hb, Outcome.bind] at h4
    exact exOn_ldlt hw (by nlinarith [w0.1]) (by nlinarith [w1.1]) (by nlinarith [w1.1, w1.2]) g0 g1 g2 g3 g4 hfac
  refine ⟨hun, by simp [hsys, r0, r1], ?_⟩
  simp [Dual.prepareStep, prepareLoop, exOn, exOnSetup, Dual.gather, Item.prepareStep, Linear.prepareStep, Linear.negativeSlack,
    Equality.prepareStep, sum_range_succ] at h8
  rw [← h8.1] at h9
  have e1 : Gap.exEnv.exp = Real.exp := rfl
  simp [takeStep, Item.takeStep, Linear.takeStep, e1] at h9
  rw [← h9]
  exact ⟨_, _, _, by rw [exOn, one_div]⟩

/-- The distance of the scaling point from the central point. -/
theorem exOn_distance (W t l : Nat → ℝ) (h0 : ∀ i < 2, 0 < W i) :
    distance (exOn W t l) (1 * 1) exOnY = W 0 + (W 0)⁻¹ + (W 1 + (W 1)⁻¹) - 4 := by
  simp [distance, exOn, sum_range_succ, Whole.Spec.nth, Spec.separation, ConeCentering.Spec.separation,
    ConeCentering.Spec.cells, ConeCentering.Spec.point, ConeCentering.Spec.pair, ConeCentering.Spec.order,
    ConeCentering.Spec.inverse, ConeCentering.Spec.det, ConeCentering.Spec.form, Spec.cellSlack,
    ConeCentering.Spec.affine, ConeCentering.Spec.column, unknowns, exOnY]
  have e0 := (h0 0 two_pos).ne'
  have e1 := (h0 1 one_lt_two).ne'
  field_simp
  ring

/-- Points at most that far away are bounded. -/
theorem exOn_bounds {W t l : Nat → ℝ} (h0 : ∀ i < 2, 0 < W i) (h : distance (exOn W t l) (1 * 1) exOnY ≤ 11 / 4) :
    ∀ i < 2, 1 / 10 ≤ W i ∧ W i ≤ 10 := by
  have key : ∀ a : ℝ, 0 < a → 2 ≤ a + a⁻¹ := fun a ha => by
    have h1 : a * a⁻¹ = 1 := mul_inv_cancel₀ ha.ne'
    nlinarith [sq_nonneg (a - a⁻¹), inv_pos.2 ha]
  have key' : ∀ a : ℝ, 0 < a → a + a⁻¹ ≤ 19 / 4 → 1 / 10 ≤ a ∧ a ≤ 10 := fun a ha h => by
    have h1 : a * a⁻¹ = 1 := mul_inv_cancel₀ ha.ne'
    have h2 := inv_pos.2 ha
    exact ⟨by nlinarith, by linarith⟩
  rw [exOn_distance _ _ _ h0] at h
  have k0 := key _ (h0 0 two_pos)
  have k1 := key _ (h0 1 one_lt_two)
  intro i hi
  have : i = 0 ∨ i = 1 := by omega
  rcases this with rfl | rfl
  · exact key' _ (h0 0 two_pos) (by linarith)
  · exact key' _ (h0 1 one_lt_two) (by linarith)

/-- Maximise `80/39 y₀ + y₂` subject to `y₂ ≤ 1`, `y₀ ≤ 3/2` and `y₀ = 1/2`, the equation multiplied by `1/100000`. -/
def exSmall : List (Entry ℚ) :=
  [⟨[2, 0], .linear ⟨2, 2, fun i j => if i = j then 1 else 0, fun i => if i = 0 then 1 else 3 / 2⟩
     ⟨fun i => if i = 1 then 2 else 1, fun _ => 0, fun _ => 0⟩⟩,
   ⟨[0, 1], .equality ⟨1, 1, 1, fun _ _ => 1 / 100000, fun _ => 1 / 200000, fun _ => 0⟩⟩]

/-- Its setup, with the options of the code. -/
def exSmallSetup : Iteration.Setup ℚ :=
  ⟨3, fun u => if u = 0 then 80 / 39 else if u = 2 then 1 else 0, 1, 1, exOnKkt, false, 0, fun _ _ => none, fun _ _ b => b⟩

/-- Functions that agree with the square root and the exponential where they are used. -/
def exSmallEnv : Env ℚ := ⟨fun x => x, fun x => x + 1, fun _ _ => [], fun _ _ b => b, fun _ _ _ _ _ => 0⟩

end Verif.MatrixCentering
