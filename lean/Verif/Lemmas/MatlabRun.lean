import Verif.Spec.MatlabRun
import Verif.Spec.MatlabExtract
import Verif.Lemmas.MatlabConex
import Mathlib.Analysis.Matrix.Order

/-!
# Lemmas about the MATLAB function `conex`
-/

namespace Verif.Matlab

open Spec
open scoped BigOperators

/-! ### Weak duality -/

theorem trace_psd {n : Nat} {S X : Matrix (Fin n) (Fin n) ℝ} (hS : S.PosSemidef) (hX : X.PosSemidef) :
    0 ≤ ∑ i, ∑ j, S i j * X i j := by
  have h := (hS.hadamard hX).dotProduct_mulVec_nonneg fun _ => 1
  simpa [dotProduct, Matrix.mulVec, Matrix.hadamard_apply] using h

theorem sum_square (n : Nat) (g : Nat → ℝ) :
    ∑ t ∈ Finset.range (n * n), g t = ∑ j ∈ Finset.range n, ∑ i ∈ Finset.range n, g (i + n * j) := by
  have h : ∀ k, ∑ t ∈ Finset.range (n * k), g t = ∑ j ∈ Finset.range k, ∑ i ∈ Finset.range n, g (i + n * j) := by
    intro k
    induction k with
    | zero => simp
    | succ k ih =>
      rw [Finset.sum_range_succ, ← ih, Nat.mul_succ, Finset.sum_range_add]
      refine congrArg _ (Finset.sum_congr rfl fun i _ => ?_)
      rw [Nat.add_comm]
  exact h n

theorem block_nonneg {n off : Nat} {s x : Nat → ℝ}
    (hs : (Matrix.of fun i j : Fin n => (s (off + (i + n * j)) + s (off + (j + n * i))) / 2).PosSemidef)
    (hx : (Matrix.of fun i j : Fin n => x (off + (i + n * j))).PosSemidef) :
    0 ≤ ∑ t ∈ Finset.range (n * n), s (off + t) * x (off + t) := by
  have h := trace_psd hs hx
  have hsym : ∀ i j : Fin n, x (off + (i + n * j)) = x (off + (j + n * i)) := by
    intro i j
    have := hx.1.apply j i
    simpa using this
  rw [sum_square]
  simp only [Finset.sum_range]
  simp only [Matrix.of_apply] at h
  have e : ∑ i : Fin n, ∑ j : Fin n, (s (off + (i + n * j)) + s (off + (j + n * i))) / 2 * x (off + (i + n * j)) =
      (∑ i : Fin n, ∑ j : Fin n, s (off + (i + n * j)) * x (off + (i + n * j)) +
        ∑ i : Fin n, ∑ j : Fin n, s (off + (j + n * i)) * x (off + (j + n * i))) / 2 := by
    rw [← Finset.sum_add_distrib, Finset.sum_div]
    refine Finset.sum_congr rfl fun i _ => ?_
    rw [← Finset.sum_add_distrib, Finset.sum_div]
    refine Finset.sum_congr rfl fun j _ => ?_
    rw [← hsym i j]
    ring
  rw [e] at h
  rw [Finset.sum_comm (f := fun i j : Fin n => s (off + (i + n * j)) * x (off + (i + n * j)))] at h
  linarith

theorem cone_pairing_nonneg : ∀ {s : List Nat} {off : Nat} {u x : Nat → ℝ}, DualCone s off u → Cone s off x →
    0 ≤ ∑ t ∈ Finset.range (numVar s), u (off + t) * x (off + t) := by
  intro s
  induction s with
  | nil => intro off u x _ _; simp [numVar]
  | cons n ns ih =>
    intro off u x hu hx
    obtain ⟨hu1, hu2⟩ := hu
    obtain ⟨hx1, hx2⟩ := hx
    have h1 := block_nonneg hu1 hx1
    have h2 := ih hu2 hx2
    show 0 ≤ ∑ t ∈ Finset.range (n * n + numVar ns), u (off + t) * x (off + t)
    rw [Finset.sum_range_add]
    simp only [← Nat.add_assoc]
    linarith

theorem cost_difference (P : Prob ℝ) {x : Nat → ℝ} (y : Nat → ℝ)
    (hx : ∀ i < P.m, ∑ j ∈ Finset.range P.N, P.A i j * x j = P.b i) :
    primalCost P x - dualCost P y =
      ∑ j ∈ Finset.range P.N, (P.c j - ∑ i ∈ Finset.range P.m, P.A i j * y i) * x j := by
  have : dualCost P y = ∑ j ∈ Finset.range P.N, (∑ i ∈ Finset.range P.m, P.A i j * y i) * x j := by
    unfold dualCost
    simp only [Finset.sum_mul]
    rw [Finset.sum_comm]
    refine Finset.sum_congr rfl fun i hi => ?_
    rw [← hx i (Finset.mem_range.1 hi), Finset.sum_mul]
    exact Finset.sum_congr rfl fun j _ => by ring
  rw [this, primalCost, ← Finset.sum_sub_distrib]
  exact Finset.sum_congr rfl fun j _ => by ring

theorem weak_duality {P : Prob ℝ} {f : Nat} (hN : P.N = f + numVar P.s) {x y : Nat → ℝ}
    (hx : FreePrimalFeasible P f x) (hy : FreeDualFeasible P f y) : dualCost P y ≤ primalCost P x := by
  have h := cost_difference P y hx.1
  rw [hN, Finset.sum_range_add] at h
  have h0 : ∑ j ∈ Finset.range f, (P.c j - ∑ i ∈ Finset.range P.m, P.A i j * y i) * x j = 0 := by
    refine Finset.sum_eq_zero fun j hj => ?_
    rw [hy.1 j (Finset.mem_range.1 hj), sub_self, zero_mul]
  have h1 := cone_pairing_nonneg hy.2 hx.2
  rw [h0, zero_add] at h
  linarith

/-- A feasible pair without a gap is optimal. -/
theorem optimal_of_gap {P : Prob ℝ} {f : Nat} (hN : P.N = f + numVar P.s) {x y : Nat → ℝ}
    (hx : FreePrimalFeasible P f x) (hy : FreeDualFeasible P f y) (h : primalCost P x = dualCost P y) :
    Optimal P f x y where
  primal := hx
  dual := hy
  least x' hx' := h ▸ weak_duality hN hx' hy
  greatest y' hy' := h ▸ weak_duality hN hx hy'
  gap := h

/-- Solutions are carried back. -/
theorem Spec.FreeFaithful.optimal {P Q : Prob ℝ} {f g : Nat} {sh : ℝ} {p d : (Nat → ℝ) → Nat → ℝ}
    (h : FreeFaithful P f Q g sh p d) (hN : P.N = f + numVar P.s) {x y : Nat → ℝ}
    (hx : FreePrimalFeasible Q g x) (hy : FreeDualFeasible Q g y) (hg : primalCost Q x = dualCost Q y) :
    Optimal P f (p x) (d y) := by
  obtain ⟨h1, h2⟩ := h.primal_back x hx
  obtain ⟨h3, h4⟩ := h.dual_back y hy
  exact optimal_of_gap hN h1 h3 (by rw [h2, h4, hg])

/-! ### The inequalities -/

/-- The vector `x` holds, from `off` on, the matrices `X 0`, `X 1`, .... -/
def Glued : List Nat → Nat → (Nat → Nat → ℝ) → (Nat → ℝ) → Prop
  | [], _, _, _ => True
  | n :: ns, off, X, x => (∀ t < n * n, x (off + t) = X 0 t) ∧ Glued ns (off + n * n) (fun k => X (k + 1)) x

theorem stands_affine {m n off : Nat} {A : Nat → Nat → ℝ} {c : Nat → ℝ} {L : Lmi ℝ}
    (h : StandsFor m A c n off L) {i j : Nat} (hi : i < n) (hj : j < n) :
    L.affine i j = c (off + (i + n * j)) := by
  simpa using h.slack (fun _ => 0) i j hi hj

theorem stands_mats {m n off : Nat} {A : Nat → Nat → ℝ} {c : Nat → ℝ} {L : Lmi ℝ}
    (h : StandsFor m A c n off L) {i j r : Nat} (hi : i < n) (hj : j < n) (hr : r < m) :
    ∑ v ∈ Finset.range L.vars.length, (if L.vars.getD v 0 = r then L.mats v i j else 0) =
      A r (off + (i + n * j)) := by
  have h1 := h.slack (fun k => if k = r then 1 else 0) i j hi hj
  rw [stands_affine h hi hj] at h1
  have h2 : ∑ k ∈ Finset.range m, A k (off + (i + n * j)) * (if k = r then (1 : ℝ) else 0) =
      A r (off + (i + n * j)) := by
    rw [Finset.sum_eq_single r]
    · simp
    · intro k _ hk; simp [hk]
    · intro hk; exact absurd (Finset.mem_range.2 hr) hk
  rw [h2] at h1
  have h3 : ∀ v, L.mats v i j * (if L.vars.getD v 0 = r then (1 : ℝ) else 0) =
      if L.vars.getD v 0 = r then L.mats v i j else 0 := fun v => by split_ifs <;> simp
  simp only [h3] at h1
  linarith

theorem pairing_congr {n off : Nat} {B : Nat → Nat → ℝ} {a X x : Nat → ℝ}
    (ha : ∀ i < n, ∀ j < n, B i j = a (off + (i + n * j))) (hx : ∀ t < n * n, x (off + t) = X t) :
    pairing n B X = ∑ t ∈ Finset.range (n * n), a (off + t) * x (off + t) := by
  rw [sum_square]
  unfold pairing
  refine Finset.sum_congr rfl fun j hj => Finset.sum_congr rfl fun i hi => ?_
  have hi := Finset.mem_range.1 hi
  have hj := Finset.mem_range.1 hj
  have : i + n * j < n * n := by
    calc i + n * j < n + n * j := by omega
      _ = n * (j + 1) := by ring
      _ ≤ n * n := Nat.mul_le_mul_left n hj
  rw [ha i hi j hj, hx _ this]

theorem glued_affine {m : Nat} {A : Nat → Nat → ℝ} {c : Nat → ℝ} : ∀ {s : List Nat} {off : Nat} {Ls : List (Lmi ℝ)}
    {X : Nat → Nat → ℝ} {x : Nat → ℝ}, AllStand m A c s off Ls → Glued s off X x →
    (Ls.mapIdx fun k L => pairing L.n L.affine (X k)).sum =
      ∑ t ∈ Finset.range (numVar s), c (off + t) * x (off + t) := by
  intro s
  induction s with
  | nil =>
    intro off Ls X x h _
    cases Ls with
    | nil => simp [numVar]
    | cons L Ls => exact absurd h (by simp [AllStand])
  | cons n ns ih =>
    intro off Ls X x h hg
    cases Ls with
    | nil => exact absurd h (by simp [AllStand])
    | cons L Ls =>
      obtain ⟨h1, h2⟩ := h
      obtain ⟨g1, g2⟩ := hg
      rw [List.mapIdx_cons, List.sum_cons, ih h2 g2]
      show _ = ∑ t ∈ Finset.range (n * n + numVar ns), c (off + t) * x (off + t)
      rw [Finset.sum_range_add, h1.order, pairing_congr (fun i hi j hj => stands_affine h1 hi hj) g1]
      simp only [← Nat.add_assoc]

theorem glued_row {m : Nat} {A : Nat → Nat → ℝ} {c : Nat → ℝ} {r : Nat} (hr : r < m) :
    ∀ {s : List Nat} {off : Nat} {Ls : List (Lmi ℝ)}
    {X : Nat → Nat → ℝ} {x : Nat → ℝ}, AllStand m A c s off Ls → Glued s off X x →
    (Ls.mapIdx fun k L => ∑ v ∈ Finset.range L.vars.length,
      if L.vars.getD v 0 = r then pairing L.n (L.mats v) (X k) else 0).sum =
      ∑ t ∈ Finset.range (numVar s), A r (off + t) * x (off + t) := by
  intro s
  induction s with
  | nil =>
    intro off Ls X x h _
    cases Ls with
    | nil => simp [numVar]
    | cons L Ls => exact absurd h (by simp [AllStand])
  | cons n ns ih =>
    intro off Ls X x h hg
    cases Ls with
    | nil => exact absurd h (by simp [AllStand])
    | cons L Ls =>
      obtain ⟨h1, h2⟩ := h
      obtain ⟨g1, g2⟩ := hg
      rw [List.mapIdx_cons, List.sum_cons, ih h2 g2]
      show _ = ∑ t ∈ Finset.range (n * n + numVar ns), A r (off + t) * x (off + t)
      rw [Finset.sum_range_add, h1.order,
        ← pairing_congr (B := fun i j => ∑ v ∈ Finset.range L.vars.length,
          if L.vars.getD v 0 = r then L.mats v i j else 0) (fun i hi j hj => stands_mats h1 hi hj hr) g1]
      simp only [← Nat.add_assoc]
      congr 1
      unfold pairing
      simp only [Finset.sum_mul]
      have : ∀ j, ∑ i ∈ Finset.range n, ∑ v ∈ Finset.range L.vars.length,
          (if L.vars.getD v 0 = r then L.mats v i j else 0) * X 0 (i + n * j) =
          ∑ v ∈ Finset.range L.vars.length, ∑ i ∈ Finset.range n,
          (if L.vars.getD v 0 = r then L.mats v i j else 0) * X 0 (i + n * j) := fun j => Finset.sum_comm
      simp only [this]
      rw [Finset.sum_comm]
      refine Finset.sum_congr rfl fun v _ => ?_
      split_ifs <;> simp

theorem glued_cone {m : Nat} {A : Nat → Nat → ℝ} {c : Nat → ℝ} : ∀ {s : List Nat} {off : Nat} {Ls : List (Lmi ℝ)}
    {X : Nat → Nat → ℝ} {x : Nat → ℝ}, AllStand m A c s off Ls → Glued s off X x →
    (∀ k L, Ls[k]? = some L → (Matrix.of fun i j : Fin L.n => X k (i + L.n * j)).PosSemidef) → Cone s off x := by
  intro s
  induction s with
  | nil => intros; trivial
  | cons n ns ih =>
    intro off Ls X x h hg hp
    cases Ls with
    | nil => exact absurd h (by simp [AllStand])
    | cons L Ls =>
      obtain ⟨h1, h2⟩ := h
      obtain ⟨g1, g2⟩ := hg
      refine ⟨?_, ih h2 g2 fun k M hk => hp (k + 1) M (by simpa using hk)⟩
      have := hp 0 L rfl
      obtain ⟨rfl⟩ : L.n = n := h1.order
      refine cast (congrArg Matrix.PosSemidef ?_) this
      ext i j
      have hlt : (i : Nat) + L.n * j < L.n * L.n := by
        calc (i : Nat) + L.n * j < L.n + L.n * j := by omega
          _ = L.n * (j + 1) := by ring
          _ ≤ L.n * L.n := Nat.mul_le_mul_left _ j.2
      simp only [Matrix.of_apply]
      rw [g1 _ hlt]

theorem stand_dual {m : Nat} {A : Nat → Nat → ℝ} {c : Nat → ℝ} (y : Nat → ℝ) : ∀ {s : List Nat} {off : Nat}
    {Ls : List (Lmi ℝ)}, AllStand m A c s off Ls → (∀ L ∈ Ls, (slack L y).PosSemidef) →
    DualCone s off fun j => c j - ∑ i ∈ Finset.range m, A i j * y i := by
  intro s
  induction s with
  | nil => intros; trivial
  | cons n ns ih =>
    intro off Ls h hp
    cases Ls with
    | nil => exact absurd h (by simp [AllStand])
    | cons L Ls =>
      obtain ⟨h1, h2⟩ := h
      refine ⟨?_, ih h2 fun M hM => hp M (List.mem_cons_of_mem _ hM)⟩
      have h := hp L List.mem_cons_self
      obtain ⟨rfl⟩ : L.n = n := h1.order
      refine cast (congrArg Matrix.PosSemidef ?_) h
      ext i j
      have hs := h.1.apply i j
      have e1 := h1.slack y i j i.2 j.2
      have e2 := h1.slack y j i j.2 i.2
      simp only [slack, Matrix.of_apply, star_trivial] at hs ⊢
      rw [← e1, ← e2, hs]
      ring

/-- A solution for the inequalities is a solution for the program they stand for. -/
theorem solution_program {Q : Prob ℝ} (hN : Q.N = numVar Q.s) {Ls : List (Lmi ℝ)}
    (h : AllStand Q.m Q.A Q.c Q.s 0 Ls) {x y b : Nat → ℝ} {X : Nat → Nat → ℝ} (hb : ∀ r < Q.m, b r = Q.b r)
    (hg : Glued Q.s 0 X x) (hs : LmiSolution Q.m Ls b y X) :
    FreePrimalFeasible Q 0 x ∧ FreeDualFeasible Q 0 y ∧ primalCost Q x = dualCost Q y := by
  refine ⟨⟨fun i hi => ?_, glued_cone h hg hs.psd⟩, ⟨fun j hj => absurd hj (by omega), stand_dual y h hs.slack⟩, ?_⟩
  · have := hs.eqs i hi
    rw [glued_row hi h hg, hb i hi] at this
    rw [hN]
    simpa using this
  · have := hs.gap
    rw [glued_affine h hg] at this
    rw [primalCost, hN]
    simp only [Nat.zero_add] at this
    rw [this]
    exact Finset.sum_congr rfl fun r hr => by rw [hb r (Finset.mem_range.1 hr)]

end Verif.Matlab
