import Verif.Lemmas.MatlabPipeline
import Mathlib.LinearAlgebra.Dual.Lemmas
import Mathlib.LinearAlgebra.Matrix.ToLin

/-!
# Free variables
-/

namespace Verif.Matlab

open Spec
open scoped BigOperators

/-- A vector that is orthogonal to the null space of `F'` is in the range of `F`. -/
theorem solvable_of_orthogonal (m f : Nat) (F : Nat → Nat → ℝ) (r : Nat → ℝ)
    (h : ∀ z : Nat → ℝ, (∀ j < f, ∑ i ∈ Finset.range m, F i j * z i = 0) →
      ∑ i ∈ Finset.range m, r i * z i = 0) :
    ∃ x : Nat → ℝ, ∀ i < m, ∑ j ∈ Finset.range f, F i j * x j = r i := by
  let L : (Fin m → ℝ) →ₗ[ℝ] (Fin f → ℝ) := Matrix.mulVecLin (Matrix.of fun j i => F i j)
  let φ : Module.Dual ℝ (Fin m → ℝ) := Fintype.linearCombination ℝ (fun i : Fin m => r i)
  have hφ : ∀ z, φ z = ∑ i : Fin m, z i * r i := fun z => by
    simp [φ, Fintype.linearCombination_apply]
  have hmem : φ ∈ LinearMap.range L.dualMap := by
    rw [LinearMap.range_dualMap_eq_dualAnnihilator_ker, Submodule.mem_dualAnnihilator]
    intro z hz
    rw [hφ]
    have hz : ∀ j : Fin f, ∑ i : Fin m, F i j * z i = 0 := by
      intro j
      have := congrFun (LinearMap.mem_ker.1 hz) j
      simpa [L, Matrix.mulVec, dotProduct] using this
    have := h (fun i => if hi : i < m then z ⟨i, hi⟩ else 0) (by
      intro j hj
      rw [Finset.sum_range]
      simpa using hz ⟨j, hj⟩)
    rw [Finset.sum_range] at this
    simp only [Fin.is_lt, dite_true, Fin.eta] at this
    rw [← this]
    exact Finset.sum_congr rfl fun i _ => mul_comm _ _
  obtain ⟨g, hg⟩ := LinearMap.mem_range.1 hmem
  refine ⟨fun j => if hj : j < f then g (Pi.single ⟨j, hj⟩ 1) else 0, fun i hi => ?_⟩
  have h1 : φ (Pi.single ⟨i, hi⟩ 1) = r i := by
    rw [hφ, Finset.sum_eq_single (⟨i, hi⟩ : Fin m)]
    · simp
    · intro b _ hb
      simp [Pi.single_apply, hb]
    · simp
  have h2 : L (Pi.single ⟨i, hi⟩ 1) = ∑ j : Fin f, F i j • (Pi.single j 1 : Fin f → ℝ) := by
    funext j
    simp [L, Matrix.mulVec, dotProduct, Pi.single_apply]
  rw [← h1, ← hg, LinearMap.dualMap_apply, h2, map_sum, Finset.sum_range]
  refine Finset.sum_congr rfl fun j _ => ?_
  simp

theorem Spec.FreeFaithful.trans {P Q S : Prob ℝ} {f g h : Nat} {a b : ℝ} {p d p' d' : (Nat → ℝ) → Nat → ℝ}
    (h1 : FreeFaithful P f Q g a p d) (h2 : FreeFaithful Q g S h b p' d') :
    FreeFaithful P f S h (b + a) (fun x => p (p' x)) (fun y => d (d' y)) where
  primal_back x hx := by
    obtain ⟨g1, g2⟩ := h2.primal_back x hx
    obtain ⟨g3, g4⟩ := h1.primal_back _ g1
    exact ⟨g3, by rw [g4, g2, add_assoc]⟩
  dual_back y hy := by
    obtain ⟨g1, g2⟩ := h2.dual_back y hy
    obtain ⟨g3, g4⟩ := h1.dual_back _ g1
    exact ⟨g3, by rw [g4, g2, add_assoc]⟩
  primal_forth x hx := by
    obtain ⟨x1, g1, g2⟩ := h1.primal_forth x hx
    obtain ⟨x2, g3, g4⟩ := h2.primal_forth x1 g1
    exact ⟨x2, g3, by rw [← g2, ← g4, add_assoc]⟩
  dual_forth y hy := by
    obtain ⟨x1, g1, g2⟩ := h1.dual_forth y hy
    obtain ⟨x2, g3, g4⟩ := h2.dual_forth x1 g1
    exact ⟨x2, g3, by rw [← g2, ← g4, add_assoc]⟩

theorem freePrimal_zero (P : Prob ℝ) (x : Nat → ℝ) : FreePrimalFeasible P 0 x ↔ PrimalFeasible P x := Iff.rfl

theorem freeDual_zero (P : Prob ℝ) (y : Nat → ℝ) : FreeDualFeasible P 0 y ↔ DualFeasible P y :=
  ⟨fun h => h.2, fun h => ⟨fun j hj => absurd hj (by omega), h⟩⟩

theorem Spec.Faithful.free {P Q : Prob ℝ} {p d : (Nat → ℝ) → Nat → ℝ} (h : Faithful P Q p d) :
    FreeFaithful P 0 Q 0 0 p d where
  primal_back x hx := by
    obtain ⟨g1, g2⟩ := h.primal_back x hx
    exact ⟨g1, by rw [g2, add_zero]⟩
  dual_back y hy := by
    obtain ⟨g1, g2⟩ := h.dual_back y ((freeDual_zero _ _).1 hy)
    exact ⟨(freeDual_zero _ _).2 g1, by rw [g2, add_zero]⟩
  primal_forth x hx := by
    obtain ⟨x', g1, g2⟩ := h.primal_forth x hx
    exact ⟨x', g1, by rw [g2, add_zero]⟩
  dual_forth y hy := by
    obtain ⟨y', g1, g2⟩ := h.dual_forth y ((freeDual_zero _ _).1 hy)
    exact ⟨y', (freeDual_zero _ _).2 g1, by rw [g2, add_zero]⟩

/-! ### `CleanLinear` and `Symmetrize` with free variables -/

theorem freeFaithful_clean (P : Prob ℝ) (f : Nat) (hN : P.N = f + numVar P.s) :
    FreeFaithful P f (cleanLinear P).2 f 0 id (recoverDual (cleanLinear P).1) := by
  set keep := eqKeep P.m P.N P.A P.b with hkeep
  have hmem : ∀ i, i ∈ keep ↔ _ := fun i => mem_eqKeep (m := P.m) (N := P.N) (A := P.A) (b := P.b)
  have hnd : keep.Nodup := eqKeep_nodup _ _ _ _
  have hlt : ∀ i ∈ keep, i < P.m := fun i hi => ((hmem i).1 hi).1
  have hA : ∀ i, i < P.m → i ∉ keep → ∀ j, j < P.N → P.A i j = 0 := by
    intro i hi hk j hj
    by_contra hne
    exact hk ((hmem i).2 ⟨hi, .inl ⟨j, hj, hne⟩⟩)
  have hb : ∀ i, i < P.m → i ∉ keep → P.b i = 0 := by
    intro i hi hk
    by_contra hne
    exact hk ((hmem i).2 ⟨hi, .inr hne⟩)
  have hprim : ∀ x, FreePrimalFeasible P f x ↔ FreePrimalFeasible (cleanLinear P).2 f x := by
    intro x
    refine and_congr_left fun _ => ⟨fun h i hi => h _ (hlt _ (getD_mem hi)), fun h i hi => ?_⟩
    by_cases hk : i ∈ keep
    · obtain ⟨t, ht, rfl⟩ := getD_keep hk
      exact h t ht
    · rw [hb i hi hk, Finset.sum_eq_zero]
      intro j hj
      rw [hA i hi hk j (Finset.mem_range.1 hj), zero_mul]
  have hdual : ∀ (y y' : Nat → ℝ), (∀ t, t < keep.length → y' t = y (keep.getD t 0)) →
      (FreeDualFeasible P f y ↔ FreeDualFeasible (cleanLinear P).2 f y') ∧
      dualCost P y = dualCost (cleanLinear P).2 y' := by
    intro y y' h
    have key : ∀ k, k < P.N → ∑ i ∈ Finset.range P.m, P.A i k * y i =
        ∑ t ∈ Finset.range keep.length, P.A (keep.getD t 0) k * y' t := by
      intro k hk
      have := sum_index (N := P.m) (f := fun i => P.A i k * y i) hnd hlt
        fun i hi hki => by simp only [hA i hi hki k hk, zero_mul]
      rw [this]
      refine Finset.sum_congr rfl fun t ht => ?_
      rw [h t (Finset.mem_range.1 ht)]
    constructor
    · refine and_congr (forall_congr' fun j => forall_congr' fun hj => ?_) (dualCone_congr fun k _ hk => ?_)
      · rw [key j (by omega)]
        exact Iff.rfl
      · rw [key k (by omega)]
        rfl
    · have := sum_index (N := P.m) (f := fun i => P.b i * y i) hnd hlt
        fun i hi hki => by simp only [hb i hi hki, zero_mul]
      refine this.trans (Finset.sum_congr rfl fun t ht => ?_)
      rw [h t (Finset.mem_range.1 ht)]
      rfl
  refine ⟨fun x hx => ⟨(hprim x).2 hx, (add_zero _).symm⟩, fun y hy => ?_,
    fun x hx => ⟨x, (hprim x).1 hx, add_zero _⟩, fun y hy => ?_⟩
  · obtain ⟨h1, h2⟩ := hdual (recoverDual (cleanLinear P).1 y) y fun t ht => by
      rw [recoverDual_eq]
      exact (recover_get hnd y ht).symm
    exact ⟨h1.2 hy, by rw [h2, add_zero]⟩
  · obtain ⟨h1, h2⟩ := hdual y (fun t => y (keep.getD t 0)) fun _ _ => rfl
    exact ⟨_, h1.1 hy, by rw [add_zero]; exact h2.symm⟩

theorem freeSlack_sym (P : Prob ℝ) (f : Nat) (y : Nat → ℝ) :
    FreeDualFeasible P f y ↔ FreeDualFeasible (symmetricFrom f P) f y := by
  unfold FreeDualFeasible
  have hs : ∀ k, f ≤ k → k < f + numVar P.s →
      (symmetricFrom f P).c k - ∑ i ∈ Finset.range P.m, (symmetricFrom f P).A i k * y i =
      ((P.c k - ∑ i ∈ Finset.range P.m, P.A i k * y i) + (P.c (mirror P.s f k) -
        ∑ i ∈ Finset.range P.m, P.A i (mirror P.s f k) * y i)) / 2 := by
    intro k hf hk
    have : ∑ i ∈ Finset.range P.m, (symmetricFrom f P).A i k * y i =
        (∑ i ∈ Finset.range P.m, P.A i k * y i + ∑ i ∈ Finset.range P.m, P.A i (mirror P.s f k) * y i) / 2 := by
      rw [← Finset.sum_add_distrib, Finset.sum_div]
      refine Finset.sum_congr rfl fun i _ => ?_
      show symmetrizeFrom f P.s (P.A i) k * y i = _
      rw [symmetrizeFrom_get _ _ _ hf hk]
      ring
    rw [this]
    show symmetrizeFrom f P.s P.c k - _ = _
    rw [symmetrizeFrom_get _ _ _ hf hk]
    ring
  have hsym : SymRow P.s f fun k =>
      (symmetricFrom f P).c k - ∑ i ∈ Finset.range P.m, (symmetricFrom f P).A i k * y i := by
    rw [symRow_iff]
    intro k k1 k2
    obtain ⟨m1, m2, m3⟩ := mirror_range P.s f k k1 k2
    show _ - _ = _ - _
    rw [hs _ m1 m2, hs _ k1 k2, m3, add_comm]
  rw [show (symmetricFrom f P).s = P.s from rfl, show (symmetricFrom f P).m = P.m from rfl,
    dualCone_iff_of_sym hsym]
  refine and_congr (forall_congr' fun j => forall_congr' fun hj => ?_)
    (dualCone_congr_sym fun k hf hk => hs k hf hk)
  have hc : (symmetricFrom f P).c j = P.c j := symmetrizeFrom_free f P.s P.c hj
  have hA : ∀ i, (symmetricFrom f P).A i j = P.A i j := fun i => symmetrizeFrom_free f P.s (P.A i) hj
  simp only [hc, hA]

theorem freeFaithful_symmetric (P : Prob ℝ) (f : Nat) (hN : P.N = f + numVar P.s) :
    FreeFaithful P f (symmetricFrom f P) f 0 id id := by
  have hp : ∀ x, Cone P.s f x → ∀ a : Nat → ℝ, ∑ j ∈ Finset.range P.N, symmetrizeFrom f P.s a j * x j =
      ∑ j ∈ Finset.range P.N, a j * x j := by
    intro x hx a
    rw [hN]
    exact symmetrizeFrom_inner f P.s a x (cone_symRow hx)
  refine ⟨fun x hx => ⟨⟨fun i hi => (hp x hx.2 _).symm.trans (hx.1 i hi), hx.2⟩,
      (hp x hx.2 _).symm.trans (add_zero _).symm⟩,
    fun y hy => ⟨(freeSlack_sym P f y).2 hy, (add_zero _).symm⟩,
    fun x hx => ⟨x, ⟨fun i hi => (hp x hx.2 _).trans (hx.1 i hi), hx.2⟩, (add_zero _).trans (hp x hx.2 _)⟩,
    fun y hy => ⟨y, (freeSlack_sym P f y).1 hy, add_zero _⟩⟩

/-! ### `EliminateFreeVars` -/

theorem dualCone_shift : ∀ {s : List Nat} {off off' : Nat} {x x' : Nat → ℝ},
    (∀ t, t < numVar s → x' (off' + t) = x (off + t)) → (DualCone s off x ↔ DualCone s off' x') := by
  intro s
  induction s with
  | nil => exact fun _ => Iff.rfl
  | cons n ns ih =>
    intro off off' x x' h
    simp only [numVar] at h
    simp only [DualCone]
    refine and_congr ?_ (ih fun t ht => by
      have := h (n * n + t) (by omega)
      simpa [Nat.add_assoc] using this)
    have : (Matrix.of fun i j : Fin n => (x (off + (i + n * j)) + x (off + (j + n * i))) / 2) =
        Matrix.of fun i j : Fin n => (x' (off' + (i + n * j)) + x' (off' + (j + n * i))) / 2 := by
      ext i j
      have hb := pos_bounds (off := 0) i.2 j.2
      have hb' := pos_bounds (off := 0) j.2 i.2
      unfold pos at hb hb'
      simp only [Matrix.of_apply, h (i + n * j) (by omega), h (j + n * i) (by omega)]
    rw [this]

section
variable {la : LinAlg ℝ} {P : Prob ℝ} {f : Nat}

theorem sum_split (hN : f ≤ P.N) (g : Nat → ℝ) : ∑ j ∈ Finset.range P.N, g j =
    ∑ j ∈ Finset.range f, g j + ∑ k ∈ Finset.range (P.N - f), g (k + f) := by
  conv_lhs => rw [show P.N = f + (P.N - f) by omega, Finset.sum_range_add]
  congr 1
  exact Finset.sum_congr rfl fun k _ => by rw [Nat.add_comm]

theorem elim_A (q k : Nat) : (eliminateFree la P f).A q k =
    ∑ i ∈ Finset.range P.m, P.A i (k + f) * (freeBasis la P f).2 i q := by
  simp only [eliminateFree, sum_range_list]

theorem elim_b (q : Nat) : (eliminateFree la P f).b q =
    ∑ i ∈ Finset.range P.m, P.b i * (freeBasis la P f).2 i q := by
  simp only [eliminateFree, sum_range_list]

theorem elim_c (k : Nat) : (eliminateFree la P f).c k =
    P.c (k + f) - ∑ i ∈ Finset.range P.m, P.A i (k + f) * freeOffset la P f i := by
  simp only [eliminateFree, sum_range_list]

theorem recoverFreeDual_eq (y : Nat → ℝ) (i : Nat) : recoverFreeDual la P f y i = freeOffset la P f i +
    ∑ q ∈ Finset.range (freeBasis la P f).1, (freeBasis la P f).2 i q * y q := by
  simp only [recoverFreeDual, sum_range_list]

theorem offset_ok (hs : SolveOk la) (hc : ∃ y : Nat → ℝ, ∀ j < f, ∑ i ∈ Finset.range P.m, P.A i j * y i = P.c j) :
    ∀ j < f, ∑ i ∈ Finset.range P.m, P.A i j * freeOffset la P f i = P.c j :=
  hs f P.m (fun j i => P.A i j) P.c hc

/-- The residual of an equation, combined with a column of the basis. -/
theorem elim_residual (x : Nat → ℝ) (q : Nat) :
    (eliminateFree la P f).b q - ∑ k ∈ Finset.range (P.N - f), (eliminateFree la P f).A q k * x k =
      ∑ i ∈ Finset.range P.m, (P.b i - ∑ k ∈ Finset.range (P.N - f), P.A i (k + f) * x k) *
        (freeBasis la P f).2 i q := by
  simp only [elim_A, elim_b, Finset.sum_mul, sub_mul, Finset.sum_sub_distrib]
  congr 1
  rw [Finset.sum_comm]
  exact Finset.sum_congr rfl fun i _ => Finset.sum_congr rfl fun k _ => by ring

/-- The slack of the eliminated program. -/
theorem elim_slack (y : Nat → ℝ) (k : Nat) :
    (eliminateFree la P f).c k - ∑ q ∈ Finset.range (freeBasis la P f).1, (eliminateFree la P f).A q k * y q =
      P.c (k + f) - ∑ i ∈ Finset.range P.m, P.A i (k + f) * recoverFreeDual la P f y i := by
  simp only [elim_A, elim_c, recoverFreeDual_eq, mul_add, Finset.sum_add_distrib, Finset.sum_mul,
    Finset.mul_sum]
  rw [Finset.sum_comm, sub_sub]
  congr 2
  exact Finset.sum_congr rfl fun i _ => Finset.sum_congr rfl fun q _ => by ring

theorem elim_dualCost (y : Nat → ℝ) : dualCost P (recoverFreeDual la P f y) =
    dualCost (eliminateFree la P f) y + ∑ i ∈ Finset.range P.m, P.b i * freeOffset la P f i := by
  unfold dualCost
  simp only [elim_b, recoverFreeDual_eq, mul_add, Finset.sum_add_distrib, Finset.sum_mul, Finset.mul_sum]
  rw [add_comm, Finset.sum_comm]
  congr 1
  exact Finset.sum_congr rfl fun i _ => Finset.sum_congr rfl fun q _ => by ring

theorem elim_primalCost (hN : f ≤ P.N)
    (h0 : ∀ j < f, ∑ i ∈ Finset.range P.m, P.A i j * freeOffset la P f i = P.c j) (x : Nat → ℝ)
    (hx : ∀ i < P.m, ∑ j ∈ Finset.range P.N, P.A i j * x j = P.b i) :
    primalCost P x = primalCost (eliminateFree la P f) (fun k => x (k + f)) +
      ∑ i ∈ Finset.range P.m, P.b i * freeOffset la P f i := by
  have h1 : ∑ i ∈ Finset.range P.m, P.b i * freeOffset la P f i =
      ∑ j ∈ Finset.range P.N, (∑ i ∈ Finset.range P.m, P.A i j * freeOffset la P f i) * x j := by
    simp only [Finset.sum_mul]
    rw [Finset.sum_comm]
    refine Finset.sum_congr rfl fun i hi => ?_
    rw [← hx i (Finset.mem_range.1 hi), Finset.sum_mul]
    exact Finset.sum_congr rfl fun j _ => by ring
  rw [h1]
  unfold primalCost
  rw [show (eliminateFree la P f).N = P.N - f from rfl, sum_split hN, sum_split hN]
  have h2 : ∑ j ∈ Finset.range f, (∑ i ∈ Finset.range P.m, P.A i j * freeOffset la P f i) * x j =
      ∑ j ∈ Finset.range f, P.c j * x j :=
    Finset.sum_congr rfl fun j hj => by rw [h0 j (Finset.mem_range.1 hj)]
  rw [h2]
  simp only [elim_c, sub_mul, Finset.sum_sub_distrib]
  ring

theorem freeFaithful_eliminate (hs : SolveOk la) (hn : NullOk la) (hN : P.N = f + numVar P.s)
    (hc : ∃ y : Nat → ℝ, ∀ j < f, ∑ i ∈ Finset.range P.m, P.A i j * y i = P.c j) :
    FreeFaithful P f (eliminateFree la P f) 0 (∑ i ∈ Finset.range P.m, P.b i * freeOffset la P f i)
      (recoverFree la P f) (recoverFreeDual la P f) := by
  have h0 := offset_ok hs hc
  have hfN : f ≤ P.N := by omega
  obtain ⟨n1, n2⟩ := hn f P.m (fun j i => P.A i j)
  have n1 : ∀ q < (freeBasis la P f).1, ∀ j < f, ∑ i ∈ Finset.range P.m, P.A i j * (freeBasis la P f).2 i q = 0 := n1
  have hfree : ∀ y : Nat → ℝ, ∀ j < f, ∑ i ∈ Finset.range P.m, P.A i j * recoverFreeDual la P f y i = P.c j := by
    intro y j hj
    simp only [recoverFreeDual_eq, mul_add, Finset.sum_add_distrib, Finset.mul_sum]
    rw [h0 j hj, Finset.sum_comm, Finset.sum_eq_zero, add_zero]
    intro q hq
    have := n1 q (Finset.mem_range.1 hq) j hj
    have e : ∑ i ∈ Finset.range P.m, P.A i j * ((freeBasis la P f).2 i q * y q) =
        (∑ i ∈ Finset.range P.m, P.A i j * (freeBasis la P f).2 i q) * y q := by
      rw [Finset.sum_mul]
      exact Finset.sum_congr rfl fun i _ => by ring
    rw [e, this, zero_mul]
  have hcone : ∀ y : Nat → ℝ, DualFeasible (eliminateFree la P f) y ↔
      DualCone P.s f fun j => P.c j - ∑ i ∈ Finset.range P.m, P.A i j * recoverFreeDual la P f y i := by
    intro y
    refine (dualCone_shift fun t _ => ?_)
    have := elim_slack (la := la) (P := P) (f := f) y t
    rw [Nat.zero_add, Nat.add_comm]
    exact this.symm
  refine ⟨fun x hx => ?_, fun y hy => ?_, fun x hx => ?_, fun y hy => ?_⟩
  · -- the free variables solve the equations
    obtain ⟨hx1, hx2⟩ := hx
    have hsolv : ∃ z : Nat → ℝ, ∀ i < P.m, ∑ j ∈ Finset.range f, P.A i j * z j =
        P.b i - ∑ k ∈ Finset.range (P.N - f), P.A i (k + f) * x k := by
      refine solvable_of_orthogonal P.m f P.A _ fun z hz => ?_
      obtain ⟨w, hw⟩ := n2 z hz
      have hw : ∀ i < P.m, z i = ∑ q ∈ Finset.range (freeBasis la P f).1, (freeBasis la P f).2 i q * w q := hw
      have e1 : ∑ i ∈ Finset.range P.m, (P.b i - ∑ k ∈ Finset.range (P.N - f), P.A i (k + f) * x k) * z i =
          ∑ q ∈ Finset.range (freeBasis la P f).1, ((eliminateFree la P f).b q -
            ∑ k ∈ Finset.range (P.N - f), (eliminateFree la P f).A q k * x k) * w q := by
        simp only [elim_residual]
        simp only [Finset.sum_mul _ _ (w _)]
        rw [Finset.sum_comm]
        refine Finset.sum_congr rfl fun i hi => ?_
        rw [hw i (Finset.mem_range.1 hi), Finset.mul_sum]
        exact Finset.sum_congr rfl fun q _ => by ring
      rw [e1]
      refine Finset.sum_eq_zero fun q hq => ?_
      have : ∑ k ∈ Finset.range (P.N - f), (eliminateFree la P f).A q k * x k = (eliminateFree la P f).b q :=
        hx1 q (Finset.mem_range.1 hq)
      rw [this, sub_self, zero_mul]
    have hsol := hs P.m f P.A _ hsolv
    have hrec1 : ∀ j < f, recoverFree la P f x j = la.solve P.m f P.A
        (fun i => P.b i - ∑ k ∈ Finset.range (P.N - f), P.A i (k + f) * x k) j := by
      intro j hj
      simp only [recoverFree, if_pos hj, sum_range_list]
    have hrec2 : ∀ k, recoverFree la P f x (k + f) = x k := by
      intro k
      simp only [recoverFree, if_neg (show ¬ k + f < f by omega), Nat.add_sub_cancel]
    have hfeas : ∀ i < P.m, ∑ j ∈ Finset.range P.N, P.A i j * recoverFree la P f x j = P.b i := by
      intro i hi
      rw [sum_split hfN]
      have e1 : ∑ j ∈ Finset.range f, P.A i j * recoverFree la P f x j =
          P.b i - ∑ k ∈ Finset.range (P.N - f), P.A i (k + f) * x k := by
        rw [← hsol i hi]
        exact Finset.sum_congr rfl fun j hj => by rw [hrec1 j (Finset.mem_range.1 hj)]
      rw [e1]
      simp only [hrec2]
      ring
    refine ⟨⟨hfeas, ?_⟩, ?_⟩
    · refine (cone_congr (off := 0) (x := x) fun t _ => ?_).1 hx2
      rw [Nat.add_comm, hrec2, Nat.zero_add]
    · rw [elim_primalCost hfN h0 _ hfeas]
      simp only [hrec2]
  · have hy := (freeDual_zero _ _).1 hy
    exact ⟨⟨hfree y, (hcone y).1 hy⟩, elim_dualCost y⟩
  · obtain ⟨hx1, hx2⟩ := hx
    refine ⟨fun k => x (k + f), ⟨fun q hq => ?_, ?_⟩, (elim_primalCost hfN h0 x hx1).symm⟩
    · have hr := elim_residual (la := la) (P := P) (f := f) (fun k => x (k + f)) q
      have hz : ∑ i ∈ Finset.range P.m, (P.b i - ∑ k ∈ Finset.range (P.N - f), P.A i (k + f) * x (k + f)) *
          (freeBasis la P f).2 i q = 0 := by
        have e : ∀ i ∈ Finset.range P.m, (P.b i - ∑ k ∈ Finset.range (P.N - f), P.A i (k + f) * x (k + f)) *
            (freeBasis la P f).2 i q = ∑ j ∈ Finset.range f, x j * (P.A i j * (freeBasis la P f).2 i q) := by
          intro i hi
          rw [← hx1 i (Finset.mem_range.1 hi), sum_split hfN, add_sub_cancel_right, Finset.sum_mul]
          exact Finset.sum_congr rfl fun j _ => by ring
        rw [Finset.sum_congr rfl e, Finset.sum_comm]
        refine Finset.sum_eq_zero fun j hj => ?_
        rw [← Finset.mul_sum, n1 q hq j (Finset.mem_range.1 hj), mul_zero]
      rw [hz] at hr
      exact (sub_eq_zero.1 hr).symm
    · exact (cone_congr (off := f) (x := x) fun t _ => by rw [Nat.zero_add, Nat.add_comm]).1 hx2
  · obtain ⟨hy1, hy2⟩ := hy
    obtain ⟨w, hw⟩ := n2 (fun i => y i - freeOffset la P f i) fun j hj => by
      simp only [mul_sub, Finset.sum_sub_distrib]
      rw [hy1 j hj, h0 j hj, sub_self]
    have hyw : ∀ i < P.m, recoverFreeDual la P f w i = y i := by
      intro i hi
      have : y i - freeOffset la P f i =
        ∑ q ∈ Finset.range (freeBasis la P f).1, (freeBasis la P f).2 i q * w q := hw i hi
      rw [recoverFreeDual_eq, ← this]
      ring
    refine ⟨w, (freeDual_zero _ _).2 ((hcone w).2 ?_), ?_⟩
    · have e : (fun j => P.c j - ∑ i ∈ Finset.range P.m, P.A i j * recoverFreeDual la P f w i) =
          fun j => P.c j - ∑ i ∈ Finset.range P.m, P.A i j * y i := by
        funext j
        exact congrArg (P.c j - ·) (Finset.sum_congr rfl fun i hi => by rw [hyw i (Finset.mem_range.1 hi)])
      rw [e]
      exact hy2
    · rw [← elim_dualCost]
      exact Finset.sum_congr rfl fun i hi => by rw [hyw i (Finset.mem_range.1 hi)]

end
end Verif.Matlab
