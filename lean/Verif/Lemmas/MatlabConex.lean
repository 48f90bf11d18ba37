import Verif.Lemmas.MatlabFree
import Mathlib.RingTheory.Finiteness.Basic
import Mathlib.LinearAlgebra.FiniteDimensional.Basic

/-!
# `conex.m`: what is assumed can be met, and the steps together
-/

namespace Verif.Matlab

open Spec
open scoped BigOperators

/-! ### The assumptions can be met -/

theorem exists_null (r c : Nat) (A : Nat → Nat → ℝ) : ∃ B : Nat × (Nat → Nat → ℝ),
    (∀ q < B.1, ∀ i < r, ∑ j ∈ Finset.range c, A i j * B.2 j q = 0) ∧
    ∀ z : Nat → ℝ, (∀ i < r, ∑ j ∈ Finset.range c, A i j * z j = 0) →
      ∃ w : Nat → ℝ, ∀ j < c, z j = ∑ q ∈ Finset.range B.1, B.2 j q * w q := by
  let L : (Fin c → ℝ) →ₗ[ℝ] (Fin r → ℝ) := Matrix.mulVecLin (Matrix.of fun i j => A i j)
  have hL : ∀ z : Fin c → ℝ, z ∈ LinearMap.ker L ↔ ∀ i : Fin r, ∑ j : Fin c, A i j * z j = 0 := by
    intro z
    rw [LinearMap.mem_ker]
    constructor
    · intro h i
      have := congrFun h i
      simpa [L, Matrix.mulVec, dotProduct] using this
    · intro h
      funext i
      simpa [L, Matrix.mulVec, dotProduct] using h i
  have hfg : (LinearMap.ker L).FG := IsNoetherian.noetherian _
  obtain ⟨n, s, hs⟩ := Submodule.fg_iff_exists_fin_generating_family.1 hfg
  refine ⟨(n, fun j q => if h : q < n ∧ j < c then s ⟨q, h.1⟩ ⟨j, h.2⟩ else 0), ?_, ?_⟩
  · intro q hq i hi
    have : s ⟨q, hq⟩ ∈ LinearMap.ker L := hs ▸ Submodule.subset_span ⟨_, rfl⟩
    have := (hL _).1 this ⟨i, hi⟩
    have hq : q < n := hq
    rw [Finset.sum_range]
    simpa [hq] using this
  · intro z hz
    have hmem : (fun j : Fin c => z j) ∈ LinearMap.ker L := by
      rw [hL]
      intro i
      have := hz i i.2
      rwa [Finset.sum_range] at this
    rw [← hs] at hmem
    obtain ⟨w, hw⟩ := (Submodule.mem_span_range_iff_exists_fun ℝ).1 hmem
    refine ⟨fun q => if h : q < n then w ⟨q, h⟩ else 0, fun j hj => ?_⟩
    have := congrFun hw ⟨j, hj⟩
    simp only [Finset.sum_apply, Pi.smul_apply, smul_eq_mul] at this
    rw [Finset.sum_range, ← this]
    refine Finset.sum_congr rfl fun q _ => ?_
    simp [hj, mul_comm]

/-- Functions that meet the assumptions; the basis of a matrix without rows may be any. -/
theorem exists_linAlg (b : Nat → Nat → Nat → ℝ)
    (hb : ∀ c, ∀ z : Nat → ℝ, ∃ w : Nat → ℝ, ∀ j < c, z j = ∑ q ∈ Finset.range c, b c j q * w q) :
    ∃ la : LinAlg ℝ, SolveOk la ∧ NullOk la ∧ (∀ c A, la.null 0 c A = (c, b c)) ∧
      ∀ c A v j, la.solve 0 c A v j = 0 := by
  classical
  refine ⟨{
    solve := fun r c A v => if r = 0 then fun _ => 0
      else if h : ∃ z : Nat → ℝ, ∀ i < r, ∑ j ∈ Finset.range c, A i j * z j = v i
      then h.choose else fun _ => 0
    null := fun r c A => if r = 0 then (c, b c) else (exists_null r c A).choose }, ?_, ?_, ?_, ?_⟩
  · intro r c A v h
    by_cases hr : r = 0
    · intro i hi
      omega
    · simp only [if_neg hr, dif_pos h]
      exact h.choose_spec
  · intro r c A
    by_cases hr : r = 0
    · simp only [hr, if_true]
      exact ⟨fun _ _ i hi => absurd hi (by omega), fun z _ => hb c z⟩
    · simp only [if_neg hr]
      exact (exists_null r c A).choose_spec
  · intro c A
    simp
  · intro c A v j
    simp

theorem identity_spans (c : Nat) (z : Nat → ℝ) : ∃ w : Nat → ℝ, ∀ j < c, z j =
    ∑ q ∈ Finset.range c, (if j = q then (1 : ℝ) else 0) * w q := by
  refine ⟨z, fun j hj => ?_⟩
  rw [Finset.sum_eq_single j]
  · simp
  · intro q _ hq
    rw [if_neg (Ne.symm hq), zero_mul]
  · intro h
    exact absurd (Finset.mem_range.2 hj) h

/-! ### The steps together -/

theorem blkdiagPrg_stands (P : Prob ℝ) (hN : P.N = numVar P.s) : ∃ indx keep Q,
    blkdiagPrg P = .ok (indx, keep, Q) ∧ Q.N = numVar Q.s ∧
      AllStand Q.m Q.A Q.c Q.s 0 (extract Q) := by
  obtain ⟨indx, keep, Q, h1, h2, h3⟩ := blkdiag_noGap (symmetric_ok P hN)
  refine ⟨indx, keep, Q, h1, h2, ?_⟩
  unfold extract
  rw [findEntries_eq, h2]
  exact (extract_some Q.m Q.A Q.c Q.s 0).2 h3

theorem symmetrize_idem (s : List Nat) (x : Nat → ℝ) {k : Nat} (hk : k < numVar s) :
    symmetrize s (symmetrize s x) k = symmetrize s x k := by
  rw [symmetrize_get s (symmetrize s x) hk,
    (symRow_iff s 0 _).1 (symmetrize_symRow s x) k (by omega) (by omega)]
  ring

/-- Cleaning and symmetrizing keep what is asked of the costs. -/
theorem clean_costs (P : Prob ℝ) (hN : P.N = numVar P.s)
    (hc : ∀ j, j < P.N → symmetrize P.s P.c j ≠ 0 → ∃ i, i < P.m ∧ symmetrize P.s (P.A i) j ≠ 0) :
    ∀ j, j < (symmetricFrom 0 (cleanLinear P).2).N →
      symmetrize P.s (symmetricFrom 0 (cleanLinear P).2).c j ≠ 0 →
      ∃ i, i < (symmetricFrom 0 (cleanLinear P).2).m ∧
        symmetrize P.s ((symmetricFrom 0 (cleanLinear P).2).A i) j ≠ 0 := by
  intro j hj h
  have hj : j < numVar P.s := hN ▸ hj
  have e1 : symmetrize P.s (symmetricFrom 0 (cleanLinear P).2).c j = symmetrize P.s P.c j :=
    symmetrize_idem P.s P.c hj
  rw [e1] at h
  obtain ⟨i, hi, hA⟩ := hc j (hN ▸ hj) h
  have hne : ∃ k, k < P.N ∧ P.A i k ≠ 0 := by
    rw [symmetrize_get _ _ hj] at hA
    by_contra hno
    push Not at hno
    have hm := mirror_range P.s 0 j (by omega) (by omega)
    rw [hno j (hN ▸ hj), hno _ (by omega)] at hA
    simp at hA
  obtain ⟨k, hk, hAk⟩ := hne
  obtain ⟨t, ht, rfl⟩ := getD_keep (mem_eqKeep.2 ⟨hi, .inl ⟨k, hk, hAk⟩⟩ : i ∈ eqKeep P.m P.N P.A P.b)
  refine ⟨t, ht, ?_⟩
  show symmetrize P.s (symmetrize P.s (P.A ((eqKeep P.m P.N P.A P.b).getD t 0))) j ≠ 0
  rw [symmetrize_idem P.s _ hj]
  exact hA


/-- The rows that are dropped do not matter for the free variables. -/
theorem clean_consistent (P : Prob ℝ) (f : Nat) (hN : P.N = f + numVar P.s)
    (hc : ∃ y : Nat → ℝ, ∀ j < f, ∑ i ∈ Finset.range P.m, P.A i j * y i = P.c j) :
    ∃ y : Nat → ℝ, ∀ j < f, ∑ i ∈ Finset.range (symmetricFrom f (cleanLinear P).2).m,
      (symmetricFrom f (cleanLinear P).2).A i j * y i = (symmetricFrom f (cleanLinear P).2).c j := by
  obtain ⟨y, hy⟩ := hc
  set keep := eqKeep P.m P.N P.A P.b with hkeep
  refine ⟨fun t => y (keep.getD t 0), fun j hj => ?_⟩
  have hA : ∀ i, (symmetricFrom f (cleanLinear P).2).A i j = P.A (keep.getD i 0) j := fun i =>
    symmetrizeFrom_free f P.s _ hj
  have hcj : (symmetricFrom f (cleanLinear P).2).c j = P.c j := symmetrizeFrom_free f P.s P.c hj
  rw [hcj, ← hy j hj]
  simp only [hA]
  symm
  refine sum_index (l := keep) (f := fun i => P.A i j * y i) (eqKeep_nodup _ _ _ _)
    (fun i hi => (mem_eqKeep.1 hi).1) fun i hi hk => ?_
  have : P.A i j = 0 := by
    by_contra hne
    exact hk (mem_eqKeep.2 ⟨hi, .inl ⟨j, by omega, hne⟩⟩)
  simp only [this, zero_mul]

/-- Two equations, one for a free variable and one for a block of order 1: the entry left by the elimination
occurs in an equation. -/
theorem elim_entry {la : LinAlg ℝ} (hn : NullOk la) {P : Prob ℝ} (hm : P.m = 2)
    (hA : ∀ i j, i < 2 → j < 2 → P.A i j = if i = j then 1 else 0) : ∃ i, i < (eliminateFree la P 1).m ∧
      symmetrize [1] ((eliminateFree la P 1).A i) 0 ≠ 0 := by
  have hs : ∀ q, symmetrize [1] ((eliminateFree la P 1).A q) 0 = (freeBasis la P 1).2 1 q := by
    intro q
    rw [symmetrize_get _ _ (by decide), show mirror [1] 0 0 = 0 from rfl, elim_A, hm]
    simp only [Finset.sum_range_succ, Finset.sum_range_zero, Nat.zero_add, hA 0 1 (by omega) (by omega),
      hA 1 1 (by omega) (by omega)]
    norm_num
  obtain ⟨w, hw⟩ := (hn 1 P.m (fun j i => P.A i j)).2 (fun i => if i = 1 then 1 else 0) (by
    intro i hi
    have : i = 0 := by omega
    subst this
    rw [hm]
    simp [Finset.sum_range_succ, hA])
  by_contra hno
  push Not at hno
  have h1 := hw 1 (by omega)
  rw [Finset.sum_eq_zero] at h1
  · simp at h1
  · intro q hq
    have := hno q (Finset.mem_range.1 hq)
    rw [hs] at this
    exact mul_eq_zero_of_left this _

end Verif.Matlab
