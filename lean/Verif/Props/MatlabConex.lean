import Verif.Props.Matlab
import Verif.Lemmas.MatlabConex
import Mathlib.Algebra.Field.Rat

/-!
# Properties of the MATLAB function `conex` (C66, C67)
-/

namespace Verif.Matlab

open Spec
open scoped BigOperators

/-! ### C66: the matrices handed to the solver -/

/-- For every program, the matrices extracted from the program made by `blkdiagPrg` stand for its blocks:
there is one inequality for each block, and `affine - ∑ y(v) mats(v)` is the block of `c - A' y`. -/
theorem C66_extract (P : Prob ℝ) (hN : P.N = numVar P.s) : ∃ indx keep Q,
    blkdiagPrg P = .ok (indx, keep, Q) ∧ Q.N = numVar Q.s ∧
      AllStand Q.m Q.A Q.c Q.s 0 (extract Q) :=
  blkdiagPrg_stands P hN

example : sample.N = numVar sample.s := rfl

/-- For programs that do not come from `blkdiagPrg` the extraction is right exactly if no block without
entries comes before a block with entries. -/
theorem C66_exact {R : Type} [Field R] [DecidableEq R] (P : Prob R) (hN : P.N = numVar P.s) :
    AllStand P.m P.A P.c P.s 0 (extract P) ↔ NoGap P.m P.A P.s 0 := by
  unfold extract
  rw [findEntries_eq, hN]
  exact extract_some P.m P.A P.c P.s 0

/-- Two blocks of order 1, with entries in the second only: the inequality for the second block gets no
matrix. -/
theorem C66_gap_violated : ∃ P : Prob ℚ, P.N = numVar P.s ∧ P.A 0 1 = 1 ∧
    ((extract P).map fun L => L.vars) = [[], []] ∧ ¬ AllStand P.m P.A P.c P.s 0 (extract P) := by
  refine ⟨{ m := 1, N := 2, A := fun _ j => if j = 1 then 1 else 0, b := fun _ => 1, c := fun _ => 0,
            s := [1, 1] }, rfl, rfl, by decide +kernel, ?_⟩
  rw [C66_exact _ rfl]
  rintro (⟨⟨i, k, hi, h1, h2, h3⟩, -⟩ | h)
  · have : k = 0 := by omega
    subst this
    simp at h3
  · have := h 0 1 (by simp) (by omega) (by simp [numVar])
    simp at this

/-! ### C67: `conex.m` -/

/-- Programs without free variables and with more than one block: the program given to the solver stands for
the program, if every entry with a cost occurs in some equation; the values of `conex` are those of the
solver, carried back.  Missing: costs of other entries (see `C65_violated`). -/
theorem C67_blocks_partial (la : LinAlg ℝ) (P : Prob ℝ) (hN : P.N = numVar P.s)
    (hc : ∀ j, j < P.N → symmetrize P.s P.c j ≠ 0 → ∃ i, i < P.m ∧ symmetrize P.s (P.A i) j ≠ 0) :
    ∃ rows P1 indx keep Q Ls, conexPre la P none = .ok (rows, P1, (indx, keep, Q), Ls) ∧
      FreeFaithful P 0 Q 0 0 (fun x => (conexPost la none rows P1 indx keep x x).1)
        (fun y => (conexPost la none rows P1 indx keep y y).2) ∧
      AllStand Q.m Q.A Q.c Q.s 0 Ls := by
  set P1 := symmetricFrom 0 (cleanLinear P).2 with hP1
  have hN1 : P1.N = numVar P1.s := hN
  have hc1 : ∀ j, j < P1.N → symmetrize P1.s P1.c j ≠ 0 → ∃ i, i < P1.m ∧ symmetrize P1.s (P1.A i) j ≠ 0 :=
    clean_costs P hN hc
  obtain ⟨indx, keep, Q, h1, h2⟩ := C65_partial P1 hN1 hc1
  obtain ⟨indx', keep', Q', h1', -, h3⟩ := C66_extract P1 hN1
  rw [h1] at h1'
  obtain ⟨rfl, rfl, rfl⟩ : indx = indx' ∧ keep = keep' ∧ Q = Q' := by simpa using h1'
  refine ⟨(cleanLinear P).1, P1, indx, keep, Q, extract Q, ?_, ?_, h3⟩
  · simp only [conexPre, preprocess, Option.getD_none, ← hP1, h1, Outcome.bind_ok]
  · have f1 := (faithful_clean P hN).free
    have f2 := freeFaithful_symmetric (cleanLinear P).2 0 (by rw [Nat.zero_add]; exact hN)
    have := (f1.trans f2).trans h2.free
    simpa only [add_zero, id, conexPost, postprocess, Option.getD_none, Nat.lt_irrefl, if_false] using this

/-- `ConexPreprocess` with free variables and a column `c`: the program given to the solver stands for the
program, up to a constant in the values.  The equations for the free variables in the dual must be
consistent, `A\b` and `spnull` must do what is expected of them, and every entry with a cost (after the
elimination) must occur in some equation. -/
theorem C67_free_partial (la : LinAlg ℝ) (hs : SolveOk la) (hn : NullOk la) (P : Prob ℝ) (f : Nat)
    (hf : 0 < f) (rowCost : Bool) (hrow : rowCost = true → f = 1) (hN : P.N = f + numVar P.s)
    (hcons : ∃ y : Nat → ℝ, ∀ j < f, ∑ i ∈ Finset.range P.m, P.A i j * y i = P.c j)
    (hc : ∀ j, j < numVar P.s → symmetrize P.s (eliminateFree la P f).c j ≠ 0 →
      ∃ i, i < (eliminateFree la P f).m ∧ symmetrize P.s ((eliminateFree la P f).A i) j ≠ 0) :
    ∃ indx keep Q Ls, preprocess la P (some f) rowCost = .ok ((indx, keep, Q), Ls) ∧
      FreeFaithful P f Q 0 (∑ i ∈ Finset.range P.m, P.b i * freeOffset la P f i)
        (fun x => (postprocess la P (some f) indx keep x x).1)
        (fun y => (postprocess la P (some f) indx keep y y).2) ∧
      AllStand Q.m Q.A Q.c Q.s 0 Ls := by
  have hN1 : (eliminateFree la P f).N = numVar (eliminateFree la P f).s := by
    show P.N - f = numVar P.s
    omega
  obtain ⟨indx, keep, Q, h1, h2⟩ := C65_partial (eliminateFree la P f) hN1 (by rw [hN1]; exact hc)
  obtain ⟨indx', keep', Q', h1', -, h3⟩ := C66_extract (eliminateFree la P f) hN1
  rw [h1] at h1'
  obtain ⟨rfl, rfl, rfl⟩ : indx = indx' ∧ keep = keep' ∧ Q = Q' := by simpa using h1'
  refine ⟨indx, keep, Q, extract Q, ?_, ?_, h3⟩
  · have : (rowCost && f != 1) = false := by
      cases rowCost with
      | false => rfl
      | true => simp [hrow rfl]
    simp only [preprocess, this, h1, Outcome.bind_ok]
    rfl
  · have := (freeFaithful_eliminate hs hn hN hcons).trans h2.free
    simpa only [postprocess, Option.getD_some, if_pos hf, zero_add] using this

/-- A free variable and a block of order 1: minimise the free variable, which is `1`, as the other one. -/
def freeSample : Prob ℝ :=
  { m := 2, N := 2, A := fun i j => if i = j then 1 else 0, b := fun _ => 1
    c := fun j => if j = 0 then 1 else 0, s := [1] }

example (la : LinAlg ℝ) (hn : NullOk la) : freeSample.N = 1 + numVar freeSample.s ∧
    (∃ y : Nat → ℝ, ∀ j < 1, ∑ i ∈ Finset.range freeSample.m, freeSample.A i j * y i = freeSample.c j) ∧
    (∀ j, j < numVar freeSample.s → symmetrize freeSample.s (eliminateFree la freeSample 1).c j ≠ 0 →
      ∃ i, i < (eliminateFree la freeSample 1).m ∧
        symmetrize freeSample.s ((eliminateFree la freeSample 1).A i) j ≠ 0) := by
  refine ⟨rfl, ⟨fun _ => 1, fun j hj => ?_⟩, fun j hj _ => ?_⟩
  · have : j = 0 := by omega
    subst this
    simp [freeSample, Finset.sum_range_succ]
  · have : j < 1 := hj
    have : j = 0 := by omega
    subst this
    exact elim_entry hn rfl fun i j _ _ => rfl

/-- `conex.m` with one free variable. -/
theorem C67_one_free_partial (la : LinAlg ℝ) (hs : SolveOk la) (hn : NullOk la) (P : Prob ℝ)
    (hN : P.N = 1 + numVar P.s)
    (hcons : ∃ y : Nat → ℝ, ∀ j < 1, ∑ i ∈ Finset.range P.m, P.A i j * y i = P.c j)
    (hc : ∀ j, j < numVar P.s →
      symmetrize P.s (eliminateFree la (symmetricFrom 1 (cleanLinear P).2) 1).c j ≠ 0 →
      ∃ i, i < (eliminateFree la (symmetricFrom 1 (cleanLinear P).2) 1).m ∧
        symmetrize P.s ((eliminateFree la (symmetricFrom 1 (cleanLinear P).2) 1).A i) j ≠ 0) :
    ∃ rows P1 indx keep Q Ls shift, conexPre la P (some 1) = .ok (rows, P1, (indx, keep, Q), Ls) ∧
      FreeFaithful P 1 Q 0 shift (fun x => (conexPost la (some 1) rows P1 indx keep x x).1)
        (fun y => (conexPost la (some 1) rows P1 indx keep y y).2) ∧
      AllStand Q.m Q.A Q.c Q.s 0 Ls := by
  obtain ⟨indx, keep, Q, Ls, h1, h2, h3⟩ := C67_free_partial la hs hn
    (symmetricFrom 1 (cleanLinear P).2) 1 (by omega) true (fun _ => rfl) hN
    (clean_consistent P 1 hN hcons) hc
  refine ⟨(cleanLinear P).1, symmetricFrom 1 (cleanLinear P).2, indx, keep, Q, Ls,
    (∑ i ∈ Finset.range (symmetricFrom 1 (cleanLinear P).2).m, (symmetricFrom 1 (cleanLinear P).2).b i *
      freeOffset la (symmetricFrom 1 (cleanLinear P).2) 1 i) + (0 + 0), ?_, ?_, h3⟩
  · simp only [conexPre, Option.getD_some, h1, Outcome.bind_ok]
  · have f1 := freeFaithful_clean P 1 hN
    have f2 := freeFaithful_symmetric (cleanLinear P).2 1 hN
    exact (f1.trans f2).trans h2

example (la : LinAlg ℝ) (hn : NullOk la) : ∀ j, j < numVar freeSample.s →
      symmetrize freeSample.s (eliminateFree la (symmetricFrom 1 (cleanLinear freeSample).2) 1).c j ≠ 0 →
      ∃ i, i < (eliminateFree la (symmetricFrom 1 (cleanLinear freeSample).2) 1).m ∧
        symmetrize freeSample.s ((eliminateFree la (symmetricFrom 1 (cleanLinear freeSample).2) 1).A i) j ≠ 0 := by
  intro j hj _
  have : j < 1 := hj
  have : j = 0 := by omega
  subst this
  have hk : eqKeep 2 2 freeSample.A freeSample.b = [0, 1] := by
    simp [eqKeep, freeSample, List.range_succ]
  refine elim_entry hn ?_ fun i j hi hj => ?_
  · show (eqKeep 2 2 freeSample.A freeSample.b).length = 2
    rw [hk]
    rfl
  · show symmetrizeFrom 1 [1] (freeSample.A ((eqKeep 2 2 freeSample.A freeSample.b).getD i 0)) j = _
    rw [hk]
    have hi : i = 0 ∨ i = 1 := by omega
    have hj : j = 0 ∨ j = 1 := by omega
    rcases hi with rfl | rfl <;> rcases hj with rfl | rfl <;>
      simp [symmetrizeFrom, freeSample, assign, show lowerUpper 1 [1] = [(1, 1)] by decide]

/-- With two free variables or more, or with `K.f = 0`, `conex.m` always fails: the cost is a row by then, and
`Af\cf` does not fit. -/
theorem C67_row_violated (la : LinAlg ℝ) (P : Prob ℝ) (f : Nat) (hf : f ≠ 1) :
    conexPre la P (some f) = .throws := by
  simp [conexPre, preprocess, hf]

example : (2 : Nat) ≠ 1 := by decide

/-- One block and no free variables: the matrices of the program itself are given to the solver. -/
theorem C67_dense (P : Prob ℝ) (kf : Option Nat) (hkf : kf.getD 0 = 0) (n : Nat) (hs : P.s = [n])
    (hN : P.N = n * n) : ∃ rows P1 L, conexDense P kf n = .ok (rows, L) ∧
      Faithful P P1 id (recoverDual rows) ∧ StandsFor P1.m P1.A P1.c n 0 L := by
  have hN' : P.N = numVar P.s := by rw [hs, hN]; simp [numVar]
  have f1 := faithful_clean P hN'
  have f2 := faithful_symmetric (cleanLinear P).2 hN'
  refine ⟨(cleanLinear P).1, symmetric (cleanLinear P).2,
    { n := n, vars := List.range (symmetricFrom 0 (cleanLinear P).2).m
      mats := fun v i j => (symmetricFrom 0 (cleanLinear P).2).A v (i + n * j)
      affine := fun i j => (symmetricFrom 0 (cleanLinear P).2).c (i + n * j) }, ?_, f1.trans f2, ?_⟩
  · unfold conexDense
    rw [hkf]
    exact if_pos hN
  · refine ⟨rfl, List.nodup_range, fun v hv => List.mem_range.1 hv, fun y i j _ _ => ?_⟩
    simp only [List.length_range, Nat.zero_add]
    refine congrArg₂ (· - ·) rfl (Finset.sum_congr rfl fun v hv => ?_)
    have hv := Finset.mem_range.1 hv
    have : (List.range (symmetricFrom 0 (cleanLinear P).2).m).getD v 0 = v := by
      rw [List.getD_eq_getElem?_getD, List.getElem?_range (by exact hv), Option.getD_some]
    rw [this]
    rfl

example : ∃ P : Prob ℝ, P.s = [2] ∧ P.N = 2 * 2 ∧ P.A 0 1 ≠ P.A 0 2 :=
  ⟨{ m := 1, N := 4, A := fun _ j => if j = 1 then 1 else 0, b := fun _ => 1, c := fun _ => 0, s := [2] },
    rfl, rfl, by simp⟩

/-- One block with free variables: `reshape` fails. -/
theorem C67_dense_violated (P : Prob ℝ) (f n : Nat) (hf : 0 < f) (hN : P.N = f + n * n) :
    conexDense P (some f) n = .throws := by
  have : ¬ (symmetricFrom f (cleanLinear P).2).N = n * n := by
    show ¬ P.N = n * n
    omega
  simp only [conexDense, Option.getD_some, if_neg this]

example : freeSample.N = 1 + 1 * 1 := rfl

/-- A free variable with a cost that no multipliers can produce: the dual has no solution, but after the
elimination it has one, whatever `A\b` returns.  The program: minimise `x₁` over free `x₁` and `x₂ ≥ 0` with
`x₂ = 1`. -/
theorem C67_inconsistent_violated : ∃ P : Prob ℝ, P.N = 1 + numVar P.s ∧
    (∀ y, ¬ FreeDualFeasible P 1 y) ∧
    ∀ la : LinAlg ℝ, SolveOk la → NullOk la → ∃ y, FreeDualFeasible (eliminateFree la P 1) 0 y := by
  refine ⟨{ m := 1, N := 2, A := fun _ j => if j = 1 then 1 else 0, b := fun _ => 1
            c := fun j => if j = 0 then 1 else 0, s := [1] }, rfl, ?_, ?_⟩
  · rintro y ⟨h, -⟩
    have := h 0 (by omega)
    simp at this
  · intro la hs hn
    set P : Prob ℝ := { m := 1, N := 2, A := fun _ j => if j = 1 then 1 else 0, b := fun _ => 1
                        c := fun j => if j = 0 then 1 else 0, s := [1] } with hP
    obtain ⟨w, hw⟩ := (hn 1 1 (fun j i => P.A i j)).2 (fun _ => -freeOffset la P 1 0) (by
      intro i hi
      have : i = 0 := by omega
      subst this
      simp [hP])
    have hw0 : -freeOffset la P 1 0 =
      ∑ q ∈ Finset.range (freeBasis la P 1).1, (freeBasis la P 1).2 0 q * w q := hw 0 (by omega)
    refine ⟨w, (freeDual_zero _ _).2 ⟨(psd_one (a := 0) _ ?_).2 (le_refl _), trivial⟩⟩
    have := elim_slack (la := la) (P := P) (f := 1) w 0
    have e : P.c (0 + 1) - ∑ i ∈ Finset.range P.m, P.A i (0 + 1) * recoverFreeDual la P 1 w i = 0 := by
      have : recoverFreeDual la P 1 w 0 = 0 := by
        rw [recoverFreeDual_eq, ← hw0]
        ring
      have eA : P.A 0 (0 + 1) = 1 := rfl
      have ec : P.c (0 + 1) = 0 := rfl
      have em : P.m = 1 := rfl
      rw [em, Finset.sum_range_one, eA, ec, this]
      ring
    rw [e] at this
    have this : (eliminateFree la P 1).c 0 - ∑ q ∈ Finset.range (eliminateFree la P 1).m,
      (eliminateFree la P 1).A q 0 * w q = 0 := this
    simp only [Fin.isValue, Fin.val_zero, Nat.mul_zero, Nat.add_zero, this, add_zero, zero_div]

/-- With `K.f = 0`, `ConexPreprocess` changes the basis of the multipliers and never changes it back; whether
the result is right depends on the basis that `spnull` returns for a matrix without rows.  Maximise `y` over
`1 - y ≥ 0`: with the basis `-1`, which spans the space, the solution of the reduced program is `-1`, and so
is the result. -/
theorem C67_zero_violated : ∃ (la : LinAlg ℝ) (P : Prob ℝ) (indx keep : List Nat) (Q : Prob ℝ)
    (Ls : List (Lmi ℝ)) (y : Nat → ℝ), SolveOk la ∧ NullOk la ∧
    P.N = numVar P.s ∧ preprocess la P (some 0) false = .ok ((indx, keep, Q), Ls) ∧
    DualFeasible Q y ∧ (∀ y', DualFeasible Q y' → dualCost Q y' ≤ dualCost Q y) ∧
    dualCost P (postprocess la P (some 0) indx keep y y).2 ≠ dualCost Q y := by
  obtain ⟨la, hs, hn, hnull, hsolve⟩ := exists_linAlg (fun _ j q => if j = q then -1 else 0) (by
    intro c z
    obtain ⟨w, hw⟩ := identity_spans c z
    refine ⟨fun q => -w q, fun j hj => (hw j hj).trans (Finset.sum_congr rfl fun q _ => ?_)⟩
    by_cases h : j = q <;> simp [h])
  set P : Prob ℝ := { m := 1, N := 1, A := fun _ _ => 1, b := fun _ => 1, c := fun _ => 1, s := [1] } with hP
  have pm : P.m = 1 := rfl
  have pA : ∀ i j, P.A i j = 1 := fun _ _ => rfl
  have pb : P.b 0 = 1 := rfl
  have pc : ∀ j, P.c j = 1 := fun _ => rfl
  set E := eliminateFree la P 0 with hE
  have hm : E.m = 1 := by
    show (la.null 0 P.m fun j i => P.A i j).1 = 1
    rw [hnull]
  have hB : (freeBasis la P 0).2 0 0 = -1 := by
    show (la.null 0 P.m fun j i => P.A i j).2 0 0 = -1
    rw [hnull]
    simp
  have hA : ∀ k, E.A 0 k = -1 := by
    intro k
    rw [hE, elim_A, pm, Finset.sum_range_one, hB, pA]
    norm_num
  have hb : E.b 0 = -1 := by
    rw [hE, elim_b, pm, Finset.sum_range_one, hB, pb]
    norm_num
  have hc : ∀ k, E.c k = 1 := by
    intro k
    have : freeOffset la P 0 0 = 0 := hsolve _ _ _ _
    rw [hE, elim_c, pm, Finset.sum_range_one, this, pA, pc]
    norm_num
  have hN : E.N = numVar E.s := rfl
  have hEN : E.N = 1 := rfl
  obtain ⟨indx, keep, Q, h1, h2⟩ := C65_partial E hN (by
    intro j hj _
    refine ⟨0, by omega, ?_⟩
    rw [symmetrize_get _ _ (by omega), hA, hA]
    norm_num)
  have hcost : ∀ y, dualCost E y = -y 0 := by
    intro y
    simp [dualCost, hm, hb]
  have hfeas : ∀ y, DualFeasible E y ↔ 0 ≤ 1 + y 0 := by
    intro y
    have : DualFeasible E y ↔ (Matrix.of fun i j : Fin 1 => ((E.c (0 + (i + 1 * j)) -
        ∑ r ∈ Finset.range E.m, E.A r (0 + (i + 1 * j)) * y r) + (E.c (0 + (j + 1 * i)) -
        ∑ r ∈ Finset.range E.m, E.A r (0 + (j + 1 * i)) * y r)) / 2).PosSemidef ∧ True := Iff.rfl
    rw [this, and_true]
    refine psd_one _ ?_
    simp [hm, hA, hc]
  obtain ⟨y, hy1, hy2⟩ := h2.dual_forth (fun _ => -1) ((hfeas _).2 (by norm_num))
  rw [hcost] at hy2
  refine ⟨la, P, indx, keep, Q, extract Q, y, hs, hn, rfl, ?_, hy1, fun y' hy' => ?_, ?_⟩
  · simp only [preprocess, Bool.false_and, Bool.false_eq_true, if_false, ← hE, h1, Outcome.bind_ok]
  · obtain ⟨g1, g2⟩ := h2.dual_back y' hy'
    rw [hcost] at g2
    have := (hfeas _).1 g1
    rw [← g2, hy2]
    linarith
  · obtain ⟨g1, g2⟩ := h2.dual_back y hy1
    rw [hcost, hy2] at g2
    have hpost : (postprocess la P (some 0) indx keep y y).2 = recoverDual keep y := by
      simp [postprocess]
    rw [hpost, hy2]
    have : dualCost P (recoverDual keep y) = recoverDual keep y 0 := by
      simp [dualCost, hP]
    rw [this]
    intro h
    rw [h] at g2
    norm_num at g2

/-- The assumptions on `A\b` and `spnull` can be met. -/
example : ∃ la : LinAlg ℝ, SolveOk la ∧ NullOk la := by
  obtain ⟨la, h1, h2, -⟩ := exists_linAlg _ identity_spans
  exact ⟨la, h1, h2⟩

end Verif.Matlab
