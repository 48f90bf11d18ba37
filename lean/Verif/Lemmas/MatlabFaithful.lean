import Verif.Lemmas.MatlabSym
import Mathlib.Algebra.BigOperators.Field
import Mathlib.Algebra.Order.Star.Real

/-!
# The reduced program stands for the program
-/

namespace Verif.Matlab

open Spec
open scoped BigOperators

theorem getD_keep {l : List Nat} {k : Nat} (hk : k ∈ l) : ∃ t, t < l.length ∧ l.getD t 0 = k := by
  obtain ⟨t, ht, he⟩ := List.mem_iff_getElem.1 hk
  refine ⟨t, ht, ?_⟩
  rw [List.getD_eq_getElem?_getD, List.getElem?_eq_getElem ht, Option.getD_some, he]

theorem dualCone_congr : ∀ {s : List Nat} {off : Nat} {x x' : Nat → ℝ},
    (∀ k, off ≤ k → k < off + numVar s → x k = x' k) → (DualCone s off x ↔ DualCone s off x') := by
  intro s
  induction s with
  | nil => exact fun _ => Iff.rfl
  | cons n ns ih =>
    intro off x x' h
    simp only [numVar] at h
    simp only [DualCone]
    refine and_congr ?_ (ih fun k k1 k2 => h k (by omega) (by omega))
    have : (Matrix.of fun i j : Fin n => (x (off + (i + n * j)) + x (off + (j + n * i))) / 2) =
        Matrix.of fun i j : Fin n => (x' (off + (i + n * j)) + x' (off + (j + n * i))) / 2 := by
      ext i j
      have hb := pos_bounds (off := off) i.2 j.2
      have hb' := pos_bounds (off := off) j.2 i.2
      have h1 := h (pos off n i j) hb.1 (by omega)
      have h2 := h (pos off n j i) hb'.1 (by omega)
      unfold pos at h1 h2
      simp only [Matrix.of_apply, h1, h2]
    rw [this]

theorem dualCone_zero : ∀ {s : List Nat} {off : Nat} {x : Nat → ℝ}, (∀ k, x k = 0) → DualCone s off x := by
  intro s
  induction s with
  | nil => exact fun _ => trivial
  | cons n ns ih =>
    intro off x h
    refine ⟨?_, ih h⟩
    have : (Matrix.of fun i j : Fin n => (x (off + (i + n * j)) + x (off + (j + n * i))) / 2) = 0 := by
      ext i j
      simp [h]
    rw [this]
    exact Matrix.PosSemidef.zero

/-- A block of order 1. -/
theorem psd_one {a : ℝ} (f : Fin 1 → Fin 1 → ℝ) (hf : f 0 0 = a) : (Matrix.of f).PosSemidef ↔ 0 ≤ a := by
  have : (Matrix.of f) = Matrix.diagonal fun _ : Fin 1 => a := by
    ext i j
    rw [Subsingleton.elim i 0, Subsingleton.elim j 0]
    simp [hf]
  rw [this, Matrix.posSemidef_diagonal_iff]
  exact ⟨fun h => h 0, fun h _ => h⟩

theorem Spec.Faithful.trans {P Q S : Prob ℝ} {f g f' g' : (Nat → ℝ) → Nat → ℝ} (h : Faithful P Q f g)
    (h' : Faithful Q S f' g') : Faithful P S (fun x => f (f' x)) (fun y => g (g' y)) where
  primal_back x hx := by
    obtain ⟨h1, h2⟩ := h'.primal_back x hx
    obtain ⟨h3, h4⟩ := h.primal_back _ h1
    exact ⟨h3, h4.trans h2⟩
  dual_back y hy := by
    obtain ⟨h1, h2⟩ := h'.dual_back y hy
    obtain ⟨h3, h4⟩ := h.dual_back _ h1
    exact ⟨h3, h4.trans h2⟩
  primal_forth x hx := by
    obtain ⟨x1, h1, h2⟩ := h.primal_forth x hx
    obtain ⟨x2, h3, h4⟩ := h'.primal_forth x1 h1
    exact ⟨x2, h3, h4.trans h2⟩
  dual_forth y hy := by
    obtain ⟨x1, h1, h2⟩ := h.dual_forth y hy
    obtain ⟨x2, h3, h4⟩ := h'.dual_forth x1 h1
    exact ⟨x2, h3, h4.trans h2⟩

/-! ### `CleanLinear` -/

theorem faithful_clean (P : Prob ℝ) (hN : P.N = numVar P.s) :
    Faithful P (cleanLinear P).2 id (recoverDual (cleanLinear P).1) := by
  set keep := eqKeep P.m P.N P.A P.b with hkeep
  have hmem : ∀ i, i ∈ keep ↔ _ := fun i => mem_eqKeep (m := P.m) (N := P.N) (A := P.A) (b := P.b)
  have hnd : keep.Nodup := eqKeep_nodup _ _ _ _
  have hlt : ∀ i ∈ keep, i < P.m := fun i hi => ((hmem i).1 hi).1
  have hA : ∀ i, i < P.m → i ∉ keep → ∀ j, j < P.N → P.A i j = 0 := by
    intro i hi hk j hj
    by_contra hne
    exact hk ((hmem i).2 ⟨hi, .inl ⟨j, hj, hne⟩⟩)
  have hb : ∀ i, i < P.m → i ∉ keep → P.b i = 0 := by
    intro i hi hk
    by_contra hne
    exact hk ((hmem i).2 ⟨hi, .inr hne⟩)
  have hprim : ∀ x, PrimalFeasible P x ↔ PrimalFeasible (cleanLinear P).2 x := by
    intro x
    refine and_congr_left fun _ => ⟨fun h i hi => h _ (hlt _ (getD_mem hi)), fun h i hi => ?_⟩
    by_cases hk : i ∈ keep
    · obtain ⟨t, ht, rfl⟩ := getD_keep hk
      exact h t ht
    · rw [hb i hi hk, Finset.sum_eq_zero]
      intro j hj
      rw [hA i hi hk j (Finset.mem_range.1 hj), zero_mul]
  have hdual : ∀ (y y' : Nat → ℝ), (∀ t, t < keep.length → y' t = y (keep.getD t 0)) →
      (DualFeasible P y ↔ DualFeasible (cleanLinear P).2 y') ∧
      dualCost P y = dualCost (cleanLinear P).2 y' := by
    intro y y' h
    constructor
    · refine dualCone_congr fun k _ hk => ?_
      have hk : k < P.N := by omega
      have := sum_index (N := P.m) (f := fun i => P.A i k * y i) hnd hlt
        fun i hi hki => by simp only [hA i hi hki k hk, zero_mul]
      rw [this]
      refine congrArg (P.c k - ·) (Finset.sum_congr rfl fun t ht => ?_)
      rw [h t (Finset.mem_range.1 ht)]
      rfl
    · have := sum_index (N := P.m) (f := fun i => P.b i * y i) hnd hlt
        fun i hi hki => by simp only [hb i hi hki, zero_mul]
      refine this.trans (Finset.sum_congr rfl fun t ht => ?_)
      rw [h t (Finset.mem_range.1 ht)]
      rfl
  refine ⟨fun x hx => ⟨(hprim x).2 hx, rfl⟩, fun y hy => ?_, fun x hx => ⟨x, (hprim x).1 hx, rfl⟩,
    fun y hy => ?_⟩
  · obtain ⟨h1, h2⟩ := hdual (recoverDual (cleanLinear P).1 y) y fun t ht => by
      rw [recoverDual_eq]
      exact (recover_get hnd y ht).symm
    exact ⟨h1.2 hy, h2⟩
  · obtain ⟨h1, h2⟩ := hdual y (fun t => y (keep.getD t 0)) fun _ _ => rfl
    exact ⟨_, h1.1 hy, h2.symm⟩

/-! ### `Symmetrize` -/

theorem slack_sym (P : Prob ℝ) (hN : P.N = numVar P.s) (y : Nat → ℝ) :
    DualFeasible P y ↔ DualFeasible (symmetric P) y := by
  unfold DualFeasible
  have hs : ∀ k, k < numVar P.s → (symmetric P).c k - ∑ i ∈ Finset.range P.m, (symmetric P).A i k * y i =
      ((P.c k - ∑ i ∈ Finset.range P.m, P.A i k * y i) + (P.c (mirror P.s 0 k) -
        ∑ i ∈ Finset.range P.m, P.A i (mirror P.s 0 k) * y i)) / 2 := by
    intro k hk
    have : ∑ i ∈ Finset.range P.m, (symmetric P).A i k * y i =
        (∑ i ∈ Finset.range P.m, P.A i k * y i + ∑ i ∈ Finset.range P.m, P.A i (mirror P.s 0 k) * y i) / 2 := by
      rw [← Finset.sum_add_distrib, Finset.sum_div]
      refine Finset.sum_congr rfl fun i _ => ?_
      show symmetrize P.s (P.A i) k * y i = _
      rw [symmetrize_get _ _ hk]
      ring
    rw [this]
    show symmetrize P.s P.c k - _ = _
    rw [symmetrize_get _ _ hk]
    ring
  have hsym : SymRow P.s 0 fun k => (symmetric P).c k - ∑ i ∈ Finset.range P.m, (symmetric P).A i k * y i := by
    rw [symRow_iff]
    intro k k1 k2
    obtain ⟨-, m2, m3⟩ := mirror_range P.s 0 k k1 k2
    show _ - _ = _ - _
    rw [hs _ (by omega), hs _ (by omega), m3, add_comm]
  rw [show (symmetric P).s = P.s from rfl, show (symmetric P).m = P.m from rfl, dualCone_iff_of_sym hsym]
  exact dualCone_congr_sym fun k _ hk => hs k (by omega)

theorem faithful_symmetric (P : Prob ℝ) (hN : P.N = numVar P.s) : Faithful P (symmetric P) id id := by
  have hp : ∀ x, Cone P.s 0 x → ∀ a : Nat → ℝ, ∑ j ∈ Finset.range P.N, symmetrize P.s a j * x j =
      ∑ j ∈ Finset.range P.N, a j * x j := by
    intro x hx a
    rw [hN]
    exact symmetrize_inner P.s a x (cone_symRow hx)
  refine ⟨fun x hx => ⟨⟨fun i hi => (hp x hx.2 _).symm.trans (hx.1 i hi), hx.2⟩, (hp x hx.2 _).symm⟩,
    fun y hy => ⟨(slack_sym P hN y).2 hy, rfl⟩,
    fun x hx => ⟨x, ⟨fun i hi => (hp x hx.2 _).trans (hx.1 i hi), hx.2⟩, hp x hx.2 _⟩,
    fun y hy => ⟨y, (slack_sym P hN y).1 hy, rfl⟩⟩

theorem symmetric_ok (P : Prob ℝ) (hN : P.N = numVar P.s) : (symmetric P).Ok :=
  ⟨hN, fun i _ => symmetrize_symRow P.s (P.A i)⟩

/-! ### The columns of the mask -/

/-- The columns of the mask only. -/
def restrict (P : Prob ℝ) (indx : List Nat) (sizes : List Nat) : Prob ℝ :=
  { P with N := indx.length, A := fun i j => P.A i (indx.getD j 0), c := fun j => P.c (indx.getD j 0)
           s := sizes }

variable {P : Prob ℝ} {M : Nat → Bool} {cls : List (List (List Nat))}

theorem slack_symRow (hP : P.Ok) (hc : SymRow P.s 0 P.c) (y : Nat → ℝ) :
    SymRow P.s 0 fun j => P.c j - ∑ i ∈ Finset.range P.m, P.A i j * y i := by
  rw [symRow_iff]
  intro k k1 k2
  show _ - _ = _ - _
  rw [(symRow_iff _ _ _).1 hc k k1 k2]
  refine congrArg (P.c k - ·) (Finset.sum_congr rfl fun i hi => ?_)
  rw [(symRow_iff _ _ _).1 (hP.sym i (Finset.mem_range.1 hi)) k k1 k2]

theorem mem_mask (hP : P.Ok) (hM : Masked P.s 0 M cls) (k : Nat) :
    k ∈ maskIndex P.s 0 cls ↔ k < P.N ∧ M k = true := by
  rw [maskIndex_mem hM, hP.dim]
  constructor
  · rintro ⟨-, h2, h3⟩; exact ⟨by omega, h3⟩
  · rintro ⟨h2, h3⟩; exact ⟨by omega, by omega, h3⟩

theorem restrict_primal_back (hP : P.Ok) (hM : Masked P.s 0 M cls) (x : Nat → ℝ)
    (hx : PrimalFeasible (restrict P (maskIndex P.s 0 cls) (maskSizes cls)) x) :
    PrimalFeasible P (recoverPrimal (maskIndex P.s 0 cls) x) ∧
      primalCost P (recoverPrimal (maskIndex P.s 0 cls) x) =
        primalCost (restrict P (maskIndex P.s 0 cls) (maskSizes cls)) x := by
  have hnd := maskIndex_nodup hM
  have hmem := mem_mask hP hM
  have hsum : ∀ a : Nat → ℝ, ∑ j ∈ Finset.range P.N, a j * recoverPrimal (maskIndex P.s 0 cls) x j =
      ∑ t ∈ Finset.range (maskIndex P.s 0 cls).length, a ((maskIndex P.s 0 cls).getD t 0) * x t := by
    intro a
    rw [sum_index hnd (fun k hk => ((hmem k).1 hk).1) (fun k _ hkl => by rw [recover_zero x hkl, mul_zero])]
    refine Finset.sum_congr rfl fun t ht => ?_
    rw [recover_get hnd x (Finset.mem_range.1 ht)]
  refine ⟨⟨fun i hi => (hsum _).trans (hx.1 i hi), ?_⟩, hsum _⟩
  refine (cone_reduced (off' := 0) (x' := x) hM fun t ht => ?_).2.2 (fun k _ hk hMk => ?_) hx.2
  · rw [recover_get hnd x ht, Nat.zero_add]
  · refine recover_zero x fun hmk => ?_
    rw [((hmem k).1 hmk).2] at hMk
    exact absurd hMk (by simp)

theorem slack_restrict (hP : P.Ok) (hc : SymRow P.s 0 P.c) (hM : Masked P.s 0 M cls) (y y' : Nat → ℝ)
    (hy : ∀ k ∈ maskIndex P.s 0 cls, ∑ i ∈ Finset.range P.m, P.A i k * y i =
      ∑ i ∈ Finset.range P.m, P.A i k * y' i) :
    (DualFeasible P y → DualFeasible (restrict P (maskIndex P.s 0 cls) (maskSizes cls)) y') ∧
    ((∀ k, k < P.N → M k = false → P.c k - ∑ i ∈ Finset.range P.m, P.A i k * y i = 0) →
      DualFeasible (restrict P (maskIndex P.s 0 cls) (maskSizes cls)) y' → DualFeasible P y) := by
  unfold DualFeasible
  rw [dualCone_iff_of_sym (slack_symRow hP hc y)]
  set z : Nat → ℝ := fun j => P.c j - ∑ i ∈ Finset.range P.m, P.A i j * y i with hz
  set z' : Nat → ℝ := fun j => (restrict P (maskIndex P.s 0 cls) (maskSizes cls)).c j -
    ∑ i ∈ Finset.range (restrict P (maskIndex P.s 0 cls) (maskSizes cls)).m,
      (restrict P (maskIndex P.s 0 cls) (maskSizes cls)).A i j * y' i with hz'
  have hx : ∀ t, t < (maskIndex P.s 0 cls).length → z' (0 + t) = z ((maskIndex P.s 0 cls).getD t 0) := by
    intro t ht
    rw [Nat.zero_add, hz, hz']
    simp only [restrict]
    rw [hy _ (getD_mem ht)]
  have hs := symRow_reduced hM (slack_symRow hP hc y) hx
  rw [show (restrict P (maskIndex P.s 0 cls) (maskSizes cls)).s = maskSizes cls from rfl,
    dualCone_iff_of_sym hs]
  obtain ⟨-, c2, c3⟩ := cone_reduced hM hx
  exact ⟨c2, fun hz => c3 fun k _ hk => hz k (by rw [hP.dim]; omega)⟩

theorem restrict_dual_forth (hP : P.Ok) (hc : SymRow P.s 0 P.c) (hM : Masked P.s 0 M cls) (y : Nat → ℝ)
    (hy : DualFeasible P y) : DualFeasible (restrict P (maskIndex P.s 0 cls) (maskSizes cls)) y :=
  (slack_restrict hP hc hM y y fun _ _ => rfl).1 hy

theorem restrict_primal_forth (hP : P.Ok) (hM : Masked P.s 0 M cls) (hcl : Closed P M)
    (hsc : ∀ j, j < P.N → P.c j ≠ 0 → M j = true) (x : Nat → ℝ) (hx : PrimalFeasible P x) :
    PrimalFeasible (restrict P (maskIndex P.s 0 cls) (maskSizes cls))
        (fun t => x ((maskIndex P.s 0 cls).getD t 0)) ∧
      primalCost (restrict P (maskIndex P.s 0 cls) (maskSizes cls))
        (fun t => x ((maskIndex P.s 0 cls).getD t 0)) = primalCost P x := by
  have hnd := maskIndex_nodup hM
  have hmem := mem_mask hP hM
  have hsum : ∀ a : Nat → ℝ, (∀ j, j < P.N → a j ≠ 0 → M j = true) →
      ∑ t ∈ Finset.range (maskIndex P.s 0 cls).length, a ((maskIndex P.s 0 cls).getD t 0) *
        x ((maskIndex P.s 0 cls).getD t 0) = ∑ j ∈ Finset.range P.N, a j * x j := by
    intro a ha
    symm
    refine sum_index (f := fun j => a j * x j) hnd (fun k hk => ((hmem k).1 hk).1) fun k hk hkl => ?_
    have : a k = 0 := by
      by_contra hne
      exact hkl ((hmem k).2 ⟨hk, ha k hk hne⟩)
    simp only [this, zero_mul]
  refine ⟨⟨fun i hi => ?_, ?_⟩, hsum _ hsc⟩
  · by_cases ha : ∀ j, j < P.N → P.A i j ≠ 0 → M j = true
    · exact (hsum _ ha).trans (hx.1 i hi)
    · push Not at ha
      obtain ⟨j, hj, haj, hMj⟩ := ha
      have hb : P.b i = 0 := by
        by_contra hb
        exact hMj (hcl.rhs i hi hb j hj haj)
      show ∑ t ∈ Finset.range (maskIndex P.s 0 cls).length, _ = P.b i
      rw [hb, Finset.sum_eq_zero]
      intro t ht
      have hk := (hmem _).1 (getD_mem (Finset.mem_range.1 ht))
      have : P.A i ((maskIndex P.s 0 cls).getD t 0) = 0 := by
        by_contra hne
        exact hMj (hcl.row i hi _ hk.1 hk.2 hne j hj haj)
      simp only [restrict, this, zero_mul]
  · exact (cone_reduced hM fun t _ => by rw [Nat.zero_add]).2.1 hx.2

/-- The multipliers of the rows that are dropped are 0. -/
noncomputable def zeroOut (keep : List Nat) (y : Nat → ℝ) : Nat → ℝ := fun i => if i ∈ keep then y i else 0

theorem faithful_restrict (hP : P.Ok) (hc : SymRow P.s 0 P.c) (hM : Masked P.s 0 M cls) (hcl : Closed P M)
    (hsc : ∀ j, j < P.N → P.c j ≠ 0 → M j = true) :
    Faithful P (restrict P (maskIndex P.s 0 cls) (maskSizes cls)) (recoverPrimal (maskIndex P.s 0 cls))
      (zeroOut (cleanLinear (restrict P (maskIndex P.s 0 cls) (maskSizes cls))).1) where
  primal_back := restrict_primal_back hP hM
  primal_forth x hx := ⟨_, restrict_primal_forth hP hM hcl hsc x hx⟩
  dual_forth y hy := ⟨y, restrict_dual_forth hP hc hM y hy, rfl⟩
  dual_back y hy := by
    have hmem := mem_mask hP hM
    have hkeep : ∀ i, i < P.m → (i ∈ (cleanLinear (restrict P (maskIndex P.s 0 cls) (maskSizes cls))).1 ↔ _) :=
      fun i _ => mem_eqKeep (m := P.m) (N := (maskIndex P.s 0 cls).length)
        (A := fun i j => P.A i ((maskIndex P.s 0 cls).getD j 0)) (b := P.b)
    refine ⟨(slack_restrict hP hc hM _ y fun k hk => ?_).2 (fun k hk hMk => ?_) hy, ?_⟩
    · refine Finset.sum_congr rfl fun i hi => ?_
      have hi := Finset.mem_range.1 hi
      unfold zeroOut
      split_ifs with h
      · rfl
      · have : P.A i k = 0 := by
          by_contra hne
          obtain ⟨t, ht, rfl⟩ := getD_keep hk
          exact h ((hkeep i hi).2 ⟨hi, .inl ⟨t, ht, hne⟩⟩)
        rw [this, zero_mul, zero_mul]
    · have hck : P.c k = 0 := by
        by_contra hne
        rw [hsc k hk hne] at hMk
        exact absurd hMk (by simp)
      rw [hck, Finset.sum_eq_zero, sub_zero]
      intro i hi
      have hi := Finset.mem_range.1 hi
      unfold zeroOut
      split_ifs with h
      · have : P.A i k = 0 := by
          by_contra hne
          have hMk' : ¬ M k = true := by simp [hMk]
          rcases ((hkeep i hi).1 h).2 with ⟨t, ht, ha⟩ | hb
          · have := (hmem _).1 (getD_mem ht)
            exact hMk' (hcl.row i hi _ this.1 this.2 ha k hk hne)
          · exact hMk' (hcl.rhs i hi hb k hk hne)
        rw [this, zero_mul]
      · rw [mul_zero]
    · refine Finset.sum_congr rfl fun i hi => ?_
      have hi := Finset.mem_range.1 hi
      unfold zeroOut
      split_ifs with h
      · rfl
      · have : P.b i = 0 := by
          by_contra hne
          exact h ((hkeep i hi).2 ⟨hi, .inr hne⟩)
        show P.b i * 0 = P.b i * y i
        rw [this, zero_mul, zero_mul]

theorem zeroOut_recover {keep : List Nat} (y : Nat → ℝ) : zeroOut keep (recoverDual keep y) = recoverDual keep y := by
  funext i
  unfold zeroOut
  split_ifs with h
  · rfl
  · rw [recoverDual_eq, recover_zero y h]

theorem restrict_dim (hM : Masked P.s 0 M cls) : (restrict P (maskIndex P.s 0 cls) (maskSizes cls)).N =
    numVar (restrict P (maskIndex P.s 0 cls) (maskSizes cls)).s :=
  (cone_reduced (off' := 0) (x := fun k => 0) (x' := fun _ => 0) hM fun _ _ => rfl).1.symm

theorem blkdiag_eq (h : buildMask P = .ok (M, cls)) :
    blkdiag P = .ok (maskIndex P.s 0 cls,
      (cleanLinear (restrict P (maskIndex P.s 0 cls) (maskSizes cls))).1,
      (cleanLinear (restrict P (maskIndex P.s 0 cls) (maskSizes cls))).2) := by
  unfold blkdiag
  rw [h]
  rfl

end Verif.Matlab
