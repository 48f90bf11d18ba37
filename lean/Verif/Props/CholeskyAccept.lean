import Verif.Lemmas.CholeskyAccept
import Verif.Props.KktSolve
import Mathlib.Data.Real.Sqrt
import Mathlib.Tactic.IntervalCases

/-!
# C69: the block Cholesky factorisation accepts exactly the positive definite matrices
-/

namespace Verif.Sup

open Finset Spec Verif.Dense Dense.Spec

/-- **C69 (acceptance).** On every well-formed pattern, with a dense factorisation that keeps its
contract and succeeds on positive definite blocks: `BlockCholeskyInPlace` accepts the stored symmetric matrix
exactly if that matrix is positive definite, and otherwise returns `false`. -/
theorem C69_cholesky_accepts {R : Type} [Field R] [LinearOrder R] [IsStrictOrderedRing R]
    (sizes : List Nat) (seps path : List (List Nat)) (P : Pattern sizes seps)
    (hp : IsPath sizes seps path) (hne : sizes ≠ [])
    (llt : Nat → (Nat → Nat → R) → Option (Nat → Nat → R)) (hllt : LltContract llt)
    (hcomp : LltComplete llt) :
    ∃ w, workspaceInit path sizes = .ok w ∧ ∀ (S : Store R) (M : Nat → Nat → R),
      (∀ i j, i < sizes.sum → j < sizes.sum → denseSym w S i j = .ok (M i j)) →
      ((∃ S', blockCholesky llt w S = .ok (some S')) ↔ PosDef sizes.sum M) ∧
      (blockCholesky llt w S = .ok none ↔ ¬ PosDef sizes.sum M) := by
  obtain ⟨w, hw, W⟩ := workspaceInit_spec P hne hp.1 hp.2
  refine ⟨w, hw, fun S M hM => ?_⟩
  have hent : ∀ i j, i < sizes.sum → j < sizes.sum → M i j = ent sizes seps S (max i j) (min i j) := by
    intro i j hi hj
    have h := hM i j hi hj
    rw [denseSym_eq P hp hne hw S hi hj, Outcome.ok.injEq] at h
    exact h.symm
  have hpd : PosDef sizes.sum M ↔ PosDef sizes.sum fun i j => ent sizes seps S (max i j) (min i j) := by
    unfold PosDef
    refine forall_congr' fun x => imp_congr_right fun _ => ?_
    rw [sum_congr rfl fun i hi => sum_congr rfl fun j hj => by
      rw [hent i j (mem_range.1 hi) (mem_range.1 hj)]]
  have hacc : (∃ S', blockCholesky llt w S = .ok (some S')) ↔ PosDef sizes.sum M := by
    rw [hpd]
    constructor
    · rintro ⟨S', h⟩
      exact posDef_of_accepts P hp hne hw W hllt h
    · intro h
      unfold blockCholesky
      rw [W.sizes]
      exact cholLoop_accepts P hp hne hw W hllt hcomp h _ le_rfl
  refine ⟨hacc, ?_⟩
  obtain ⟨w', hw', htot⟩ := C20_cholesky_total sizes seps path P hp hne llt
  rw [hw, Outcome.ok.injEq] at hw'
  subst hw'
  rw [← hacc]
  rcases htot S with ⟨S', h⟩ | ⟨h, _⟩ <;> rw [h] <;> simp

/-- **C69 (assembled system).** Without equality constraints: if the sum of the constraint matrices is positive
definite, then assembly, `Factor` and `SolveInPlace` all succeed and return the solution of the system in the
original variable order, for every right-hand side and every number of refinement rounds; if the sum is not
positive definite, `Factor` returns `false`. -/
theorem C69_assembled_system {R : Type} [Field R] [LinearOrder R] [IsStrictOrderedRing R]
    (cs duals : List (List Nat)) (hnd : ∀ c ∈ cs, c.Nodup) (hlen : duals.length = cs.length)
    (hnodual : ∀ d ∈ duals, d = [])
    (k : Kkt) (hk : kktInit cs duals = .ok k) (hgood : NoShift k) (n : Nat)
    (hall : ∀ v, v < n ↔ ∃ c ∈ cs, v ∈ c)
    (llt : Nat → (Nat → Nat → R) → Option (Nat → Nat → R)) (hllt : LltContract llt)
    (hcomp : LltComplete llt)
    (qr : Nat → (Nat → Nat → R) → (Nat → R) → Nat → R) (G : Nat → Nat → Nat → R) (st : Store R)
    (iters : Nat) :
    ∃ w st', assemble k G st = .ok (w, st') ∧
      (PosDef n (total cs G) → ∃ s', (Solver.mk k w st' false iters none none).factor llt = .ok (some s') ∧
        ∀ b : Nat → R, ∃ x, s'.solveInPlace qr n b = .ok x ∧
          ∀ u, u < n → ∑ v ∈ range n, total cs G u v * x v = b u) ∧
      (¬ PosDef n (total cs G) → (Solver.mk k w st' false iters none none).factor llt = .ok none) := by
  have hdual : ∀ (i : Nat) (c dv : List Nat), cs[i]? = some c → duals[i]? = some dv → ∃ p, c = p ++ dv := by
    intro i c dv _ hd
    rw [hnodual dv (List.mem_of_getElem? hd)]
    exact ⟨c, by simp⟩
  obtain ⟨w, st', ha, hsolve⟩ := C21_assembled_system cs duals hnd hlen hdual k hk hgood n hall llt hllt qr G st iters
  obtain ⟨w2, st2, ha2, hm⟩ := C18_assembly_partial cs duals hnd hlen hdual k hk hgood G st
  rw [ha, Outcome.ok.injEq, Prod.mk.injEq] at ha2
  obtain ⟨rfl, rfl⟩ := ha2
  have hw := assemble_workspace ha
  obtain ⟨sp, P, hp, hne, hN, hptn, hptl, hocc, hdu, hcs⟩ := kkt_pattern hnd hlen hk
  have hmem : ∀ v, v ∈ k.pt ↔ v ∈ List.range n := by
    intro v
    rw [← hocc v, ← hall v, List.mem_range]
  have hperm : k.pt.Perm (List.range n) :=
    (List.perm_ext_iff_of_nodup hptn List.nodup_range).2 hmem
  have hNn : k.data.N = n := by
    rw [← hptl, hperm.length_eq, List.length_range]
  have hsum : k.data.supernodeSize.sum = n := by rw [← hN, hNn]
  obtain ⟨w', hw', hacc⟩ := C69_cholesky_accepts _ _ _ P hp hne llt hllt hcomp
  rw [hw, Outcome.ok.injEq] at hw'
  subst hw'
  have hpl : k.pt.length = n := by rw [hperm.length_eq, List.length_range]
  have hget : ∀ i, i < n → k.pt.getD i 0 < n ∧ k.pt.idxOf (k.pt.getD i 0) = i := by
    intro i hi
    have hi' : i < k.pt.length := by omega
    rw [List.getD_eq_getElem?_getD, List.getElem?_eq_getElem hi', Option.getD_some]
    exact ⟨by simpa using hperm.mem_iff.1 (List.getElem_mem hi'), hptn.idxOf_getElem _ _⟩
  have hdense : ∀ i j, i < k.data.supernodeSize.sum → j < k.data.supernodeSize.sum →
      denseSym w st' i j = .ok (total cs G (k.pt.getD i 0) (k.pt.getD j 0)) := by
    intro i j hi hj
    rw [hsum] at hi hj
    have := hm _ _ ((hall _).1 (hget i hi).1) ((hall _).1 (hget j hj).1)
    unfold kktMatrix at this
    rwa [(hget i hi).2, (hget j hj).2] at this
  obtain ⟨h1, h2⟩ := hacc st' _ hdense
  have hpd : PosDef k.data.supernodeSize.sum
      (fun i j => total cs G (k.pt.getD i 0) (k.pt.getD j 0)) ↔ PosDef n (total cs G) := by
    rw [hsum]
    exact posDef_perm hperm (total cs G)
  rw [hpd] at h1 h2
  have hnd' : (k.duals.all fun d => d.length = 0) = true := by
    rw [List.all_eq_true]
    intro d hd
    rw [hdu] at hd
    rw [hnodual d hd]
    rfl
  have hsave : ∃ sv, (Solver.mk k w st' false iters none none).save = ⟨k, w, st', false, iters, sv, none⟩ := by
    unfold Solver.save
    by_cases h : 0 < iters ∨ false = true
    · rw [if_pos h]; exact ⟨_, rfl⟩
    · rw [if_neg h]; exact ⟨_, rfl⟩
  obtain ⟨sv, hsv⟩ := hsave
  refine ⟨w, st', ha, fun h => ?_, fun h => ?_⟩
  · obtain ⟨S', hS⟩ := h1.2 h
    have hfac : (Solver.mk k w st' false iters none none).factor llt =
        .ok (some ⟨k, w, S', false, iters, sv, some (.chol S')⟩) := by
      unfold Solver.factor Solver.factorCore
      rw [hsv]
      simp only [hnd', hS, Outcome.bind]
      rfl
    exact ⟨_, hfac, hsolve _ hfac (fun F hF => by simp at hF)⟩
  · unfold Solver.factor Solver.factorCore
    rw [hsv]
    simp only [hnd', h2.2 h, Outcome.bind]
    rfl

/-! ### The hypotheses can be met -/

/-- A dense factorisation over the reals that returns a factor if there is one. -/
noncomputable def realLlt (n : Nat) (A : Nat → Nat → ℝ) : Option (Nat → Nat → ℝ) :=
  open Classical in
  if h : ∃ L : Nat → Nat → ℝ, (∀ r, r < n → L r r ≠ 0) ∧ (∀ r c, r < n → r < c → L r c = 0) ∧
      ∀ r c, r < n → c ≤ r → ∑ k ∈ range n, L r k * L c k = A r c then some h.choose else none

theorem realLlt_contract : LltContract realLlt := by
  intro n A L h
  unfold realLlt at h
  split_ifs at h with hc
  rw [Option.some.injEq] at h
  rw [← h]
  exact hc.choose_spec

theorem realLlt_complete : LltComplete realLlt := by
  intro n A h
  unfold realLlt
  rw [dif_pos]
  · exact ⟨_, rfl⟩
  obtain ⟨L, h1, h2, h3⟩ := exists_chol (sqrt := Real.sqrt)
    (fun d hd => ⟨Real.sqrt_pos.2 hd, Real.mul_self_sqrt hd.le⟩) h
    (fun i j _ _ => by rw [max_comm, min_comm])
  refine ⟨L, fun r hr => (h1 r hr).ne', fun r c _ => h2 r c, fun r c hr hc => ?_⟩
  rw [h3 r c hr hc, max_eq_left hc, min_eq_right hc]

/-- A positive definite and an indefinite matrix on the pattern `exSizes2`: `2` on the diagonal and the number
`t` in one entry of the second block. -/
def exStoreT (t : ℝ) : Store ℝ := fun a =>
  match a with
  | .diag 1 1 0 => t
  | .diag _ r c => if r = c then 2 else 0
  | _ => 0

def exMT (t : ℝ) (i j : Nat) : ℝ := if i = j then 2 else if i + j = 3 ∧ 0 < i ∧ 0 < j then t else 0

example : LltContract realLlt ∧ LltComplete realLlt ∧ Pattern exSizes2 exSeps2 ∧
    IsPath exSizes2 exSeps2 exPath2 ∧ exSizes2 ≠ [] :=
  ⟨realLlt_contract, realLlt_complete, exPattern2⟩

theorem exMT_stored : ∃ w, workspaceInit exPath2 exSizes2 = .ok w ∧ ∀ t i j, i < 4 → j < 4 →
    denseSym w (exStoreT t) i j = .ok (exMT t i j) := by
  refine ⟨_, rfl, ?_⟩
  intro t i j hi hj
  interval_cases i <;> interval_cases j <;> rfl

theorem exMT_form (t : ℝ) (x : Nat → ℝ) :
    ∑ i ∈ range 4, ∑ j ∈ range 4, x i * exMT t i j * x j =
      2 * (x 0 * x 0 + x 1 * x 1 + x 2 * x 2 + x 3 * x 3) + 2 * t * (x 1 * x 2) := by
  simp [sum_range_succ, exMT]
  ring

theorem exMT_posDef : PosDef 4 (exMT 1) := by
  rintro x ⟨i, hi, hx⟩
  rw [exMT_form]
  have hp := mul_self_pos.2 hx
  have h0 := mul_self_nonneg (x 0)
  have h1 := mul_self_nonneg (x 1)
  have h2 := mul_self_nonneg (x 2)
  have h3 := mul_self_nonneg (x 3)
  have h4 := mul_self_nonneg (x 1 + x 2)
  interval_cases i <;> nlinarith

theorem exMT_indef : ¬ PosDef 4 (exMT 3) := by
  intro h
  have := h (fun i => if i = 1 then 1 else if i = 2 then -1 else 0) ⟨1, by omega, by simp⟩
  rw [exMT_form] at this
  norm_num at this

/-- The remaining hypotheses of `C69_assembled_system` on a system with fill-in. -/
example : (∀ v, v < 4 ↔ ∃ c ∈ [[0, 1], [1, 2], [2, 3], [3, 0]], v ∈ c) ∧
    (∀ d ∈ ([[], [], [], []] : List (List Nat)), d = []) ∧
    ∃ k, kktInit [[0, 1], [1, 2], [2, 3], [3, 0]] [[], [], [], []] = .ok k ∧ NoShift k := by
  refine ⟨?_, by simp, _, rfl, noShift_of_bounded (n := 4) (by decide +kernel) (by decide +kernel)⟩
  intro v
  simp
  omega

/-- The factorisation accepts the first matrix and refuses the second. -/
example : ∃ w, workspaceInit exPath2 exSizes2 = .ok w ∧
    (∃ S', blockCholesky realLlt w (exStoreT 1) = .ok (some S')) ∧
    blockCholesky realLlt w (exStoreT 3) = .ok none := by
  obtain ⟨w, hw, h⟩ := C69_cholesky_accepts exSizes2 exSeps2 exPath2 exPattern2.1 exPattern2.2.1 exPattern2.2.2
    realLlt realLlt_contract realLlt_complete
  obtain ⟨w', hw', hs⟩ := exMT_stored
  rw [hw, Outcome.ok.injEq] at hw'
  subst hw'
  exact ⟨w, hw, (h _ (exMT 1) (hs 1)).1.2 exMT_posDef, (h _ (exMT 3) (hs 3)).2.2 exMT_indef⟩

end Verif.Sup
