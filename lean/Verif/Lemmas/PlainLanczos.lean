import Mathlib.LinearAlgebra.Matrix.ToLin
import Mathlib.LinearAlgebra.FiniteDimensional.Lemmas
import Verif.Lemmas.Lanczos
import Verif.Lemmas.HermitianLmi
import Verif.Spec.PlainLanczos

/-!
# Lemmas on approximate eigenvalues of one matrix
-/

namespace Verif.Plain

open Matrix Finset Lanczos SolveLoop.Spec

variable {R : Type} [Field R] [LinearOrder R] [IsStrictOrderedRing R]

section Real

variable {ι : Type} [Fintype ι] [DecidableEq ι] {sqrt : R → R} {A : Matrix ι ι R}

theorem ip_one (x y : ι → R) : ip (1 : Matrix ι ι R) x y = x ⬝ᵥ y := by
  unfold ip
  rw [one_mulVec]

theorem dot_nonneg (x : ι → R) : 0 ≤ x ⬝ᵥ x := sum_nonneg fun _ _ => mul_self_nonneg _

theorem dot_pos {x : ι → R} (h : x ≠ 0) : 0 < x ⬝ᵥ x :=
  lt_of_le_of_ne (dot_nonneg x) fun e => h (dotProduct_self_eq_zero.1 e.symm)

theorem pos_of_norm (hsq : ∀ x, 0 ≤ x → SqrtAt sqrt x) {x : ι → R} (h : sqrt (x ⬝ᵥ x) ≠ 0) :
    0 < x ⬝ᵥ x := by
  rcases (dot_nonneg x).lt_or_eq with h0 | h0
  · exact h0
  · rw [← h0] at h
    exact absurd (mul_self_eq_zero.1 (hsq 0 le_rfl).2) h

theorem loop_run (hsq : ∀ x, 0 ≤ x → SqrtAt sqrt x) (hA : Aᵀ = A) :
    ∀ (k : Nat) (u w : ι → R) (l : List (R × R)), loop sqrt A k u w = some l →
      Run sqrt A ⟨u, u⟩ ⟨w, w⟩ l ∧ l.length = k := by
  intro k
  induction k with
  | zero =>
    intro u w l h
    obtain rfl := Option.some.inj h
    exact ⟨Run.stop _ _, rfl⟩
  | succ k ih =>
    intro u w l h
    rw [loop] at h
    simp only at h
    split_ifs at h with h0
    obtain ⟨l', h1, rfl⟩ := Option.map_eq_some_iff.1 h
    obtain ⟨h2, h3⟩ := ih _ _ _ h1
    refine ⟨?_, by simp [h3]⟩
    have hv : ∀ v : ι → R, v ⬝ᵥ (Aᵀ *ᵥ v) = (v ᵥ* A) ⬝ᵥ v := fun v => by
      rw [mulVec_transpose, dotProduct_comm]
    have key := Run.step (sqrt := sqrt) (WS := A) ⟨u, u⟩ ⟨w, w⟩ l' (pos_of_norm hsq h0)
    simp only [Lanczos.inner, divBy, Lanczos.apply, subSmul, hv] at key
    refine key ?_
    rw [hA]
    exact h2

theorem lanczos_some (hsq : ∀ x, 0 ≤ x → SqrtAt sqrt x) (hA : Aᵀ = A) {r : ι → R} {iters : Nat}
    {q : List R × List R} (h : lanczos sqrt A r iters = .ok (some q)) :
    Result sqrt A 1 r q ∧ q.2.length + 1 = iters := by
  unfold lanczos at h
  simp only at h
  by_cases h0 : iters = 0
  · rw [if_pos h0] at h
    cases h
  by_cases h1 : sqrt (r ⬝ᵥ r) = 0
  · rw [if_neg h0, if_pos h1] at h
    cases h
  · rw [if_neg h0, if_neg h1] at h
    have h := Outcome.ok.inj h
    obtain ⟨l, h2, rfl⟩ := Option.map_eq_some_iff.1 h
    obtain ⟨h3, h4⟩ := loop_run hsq hA _ _ _ _ h2
    have hv : ∀ v : ι → R, v ⬝ᵥ (Aᵀ *ᵥ v) = (v ᵥ* A) ⬝ᵥ v := fun v => by
      rw [mulVec_transpose, dotProduct_comm]
    refine ⟨⟨?_, l, ?_, ?_⟩, by simp [h4]; omega⟩
    · simp only [Lanczos.inner, one_mulVec]
      exact pos_of_norm hsq h1
    · simp only [Lanczos.inner, divBy, Lanczos.apply, subSmul, hv, one_mulVec]
      rw [hA]
      exact h3
    · simp only [Lanczos.inner, divBy, Lanczos.apply, hv, one_mulVec]

theorem plain_chain (hsq : ∀ x, 0 ≤ x → SqrtAt sqrt x) (hA : Aᵀ = A) {r : ι → R} {iters : Nat}
    {q : List R × List R} (h : lanczos sqrt A r iters = .ok (some q)) :
    q.2.length + 1 = iters ∧ q.1.length = q.2.length + 1 ∧
    ∃ (v : Nat → ι → R) (a b : Nat → R), Chain 1 A q.2.length v a b ∧
      (∀ j ≤ q.2.length, q.1.getD j 0 = a j) ∧ (∀ j < q.2.length, q.2.getD j 0 = b j) ∧
      ∃ s : R, v 0 = s • r := by
  obtain ⟨h1, h2⟩ := lanczos_some hsq hA h
  have hc : A * 1 = 1 * Aᵀ := by rw [hA, Matrix.mul_one, Matrix.one_mul]
  obtain ⟨v, a, b, h0, h3, h4, h5, h6⟩ := lanczos_chain_start (fun x hx => hsq x hx.le) hc h1
  rw [hA] at h4
  exact ⟨h2, h3, v, a, b, h4, h5, h6, h0⟩

/-- The vector is a combination of the first `k` powers. -/
def kspan (A : Matrix ι ι R) (r : ι → R) (k : Nat) : Submodule R (ι → R) :=
  Submodule.span R ((fun i : Nat => A ^ i *ᵥ r) '' {i | i < k})

theorem kspan_mono {r : ι → R} {k l : Nat} (h : k ≤ l) : kspan A r k ≤ kspan A r l :=
  Submodule.span_mono (Set.image_mono fun _ hi => lt_of_lt_of_le hi h)

theorem kspan_step {r x : ι → R} {k : Nat} (h : x ∈ kspan A r k) : A *ᵥ x ∈ kspan A r (k + 1) := by
  unfold kspan at h
  induction h using Submodule.span_induction with
  | mem x hx =>
    obtain ⟨i, hi, rfl⟩ := hx
    refine Submodule.subset_span ⟨i + 1, Nat.succ_lt_succ hi, ?_⟩
    simp only [mulVec_mulVec, ← pow_succ']
  | zero => simp
  | add x y _ _ hx hy =>
    rw [mulVec_add]
    exact Submodule.add_mem _ hx hy
  | smul c x _ hx =>
    rw [mulVec_smul]
    exact Submodule.smul_mem _ c hx

theorem Chain.kspan {m : Nat} {v : Nat → ι → R} {a b : Nat → R} (h : Chain 1 A m v a b) {r : ι → R}
    {s : R} (h0 : v 0 = s • r) : ∀ j ≤ m, v j ∈ kspan A r (j + 1) := by
  intro j
  induction j using Nat.strong_induction_on with
  | _ j ih =>
    intro hj
    match j with
    | 0 =>
      rw [h0]
      exact Submodule.smul_mem _ _ (Submodule.subset_span ⟨0, by simp, by simp⟩)
    | 1 =>
      have e := h.first (by omega)
      have h1 := ih 0 (by omega) (by omega)
      have : v 1 = (b 0)⁻¹ • (A *ᵥ v 0 - a 0 • v 0) := by
        rw [← e, smul_smul, inv_mul_cancel₀ (h.ne 0 (by omega)), one_smul]
      rw [this]
      exact Submodule.smul_mem _ _ (Submodule.sub_mem _ (kspan_step h1)
        (Submodule.smul_mem _ _ (kspan_mono (by omega) h1)))
    | j + 2 =>
      have e := h.step j (by omega)
      have h1 := ih j (by omega) (by omega)
      have h2 := ih (j + 1) (by omega) (by omega)
      have : v (j + 2) = (b (j + 1))⁻¹ • (A *ᵥ v (j + 1) - a (j + 1) • v (j + 1) - b j • v j) := by
        rw [← e, smul_smul, inv_mul_cancel₀ (h.ne (j + 1) (by omega)), one_smul]
      rw [this]
      exact Submodule.smul_mem _ _ (Submodule.sub_mem _ (Submodule.sub_mem _ (kspan_step h2)
        (Submodule.smul_mem _ _ (kspan_mono (by omega) h2)))
        (Submodule.smul_mem _ _ (kspan_mono (by omega) h1)))

/-- The loop does not break down while the powers are independent. -/
theorem loop_defined (hsq : ∀ x, 0 ≤ x → SqrtAt sqrt x) {r : ι → R} :
    ∀ (k j : Nat), (∀ i, 0 < i → i < j + k → A ^ i *ᵥ r ∉ kspan A r i) → 0 < j → ∀ (u w : ι → R) (c : R),
      c ≠ 0 → u ∈ kspan A r j → w - c • (A ^ j *ᵥ r) ∈ kspan A r j →
      ∃ l, loop sqrt A k u w = some l := by
  intro k
  induction k with
  | zero => exact fun j _ _ u w c _ _ _ => ⟨[], rfl⟩
  | succ k ih =>
    intro j hi hj u w c hc hu hw
    have hw0 : w ≠ 0 := by
      rintro rfl
      refine hi j hj (by omega) ?_
      have := Submodule.smul_mem _ (-c⁻¹) hw
      rw [zero_sub, smul_neg, neg_smul, neg_neg, smul_smul, inv_mul_cancel₀ hc, one_smul] at this
      exact this
    have hb : sqrt (w ⬝ᵥ w) ≠ 0 := by
      intro e
      have := (hsq _ (dot_nonneg w)).2
      rw [e, mul_zero] at this
      exact (dot_pos hw0).ne this
    rw [loop]
    simp only [if_neg hb]
    set beta := sqrt (w ⬝ᵥ w)
    set v : ι → R := fun i => w i / beta with hv
    have hve : v = beta⁻¹ • w := by
      funext i
      simp [hv, div_eq_inv_mul]
    set alpha := (v ᵥ* A) ⬝ᵥ v
    have hwm : w ∈ kspan A r (j + 1) := by
      have h1 := kspan_mono (Nat.le_succ j) hw
      have h2 : A ^ j *ᵥ r ∈ kspan A r (j + 1) := Submodule.subset_span ⟨j, by simp, rfl⟩
      have := Submodule.add_mem _ h1 (Submodule.smul_mem _ c h2)
      simpa using this
    have hvm : v ∈ kspan A r (j + 1) := by
      rw [hve]
      exact Submodule.smul_mem _ _ hwm
    obtain ⟨l, hl⟩ := ih (j + 1) (fun i h0 h1 => hi i h0 (by omega)) (by omega) v
      (A *ᵥ v - alpha • v - beta • u) (beta⁻¹ * c) (mul_ne_zero (inv_ne_zero hb) hc) hvm (by
        have h1 := Submodule.smul_mem _ beta⁻¹ (kspan_step hw)
        have h2 := Submodule.sub_mem _ (Submodule.sub_mem _ h1 (Submodule.smul_mem _ alpha hvm))
          (Submodule.smul_mem _ beta (kspan_mono (Nat.le_succ j) hu))
        convert h2 using 1
        rw [mulVec_sub, mulVec_smul, mulVec_mulVec, ← pow_succ', smul_sub, smul_smul, hve, mulVec_smul]
        abel)
    exact ⟨_, by rw [hl]; rfl⟩

theorem notMem_kspan {r : ι → R} {m : Nat} (h : LinearIndependent R fun k : Fin m => A ^ k.1 *ᵥ r) :
    ∀ i < m, A ^ i *ᵥ r ∉ kspan A r i := by
  intro i hi
  have h1 := h.notMem_span_image (s := {k : Fin m | k.1 < i}) (x := ⟨i, hi⟩) (by simp)
  intro h2
  refine h1 (Submodule.span_mono ?_ h2)
  rintro x ⟨k, hk, rfl⟩
  exact ⟨⟨k, lt_trans hk hi⟩, hk, rfl⟩

theorem ip_one_comm (x y : ι → R) : ip (1 : Matrix ι ι R) x y = ip 1 y x :=
  ip_comm (by simp) x y

theorem ip_one_adjoint (hA : Aᵀ = A) (x y : ι → R) :
    ip (1 : Matrix ι ι R) x (A *ᵥ y) = ip 1 (A *ᵥ x) y := by
  rw [ip_one, ip_one, dotProduct_mulVec, ← mulVec_transpose, hA]

/-- All vectors of the recurrence are orthogonal to what a skew matrix that commutes makes of them. -/
theorem Chain.skew (hA : Aᵀ = A) {m : Nat} {v : Nat → ι → R} {a b : Nat → R}
    (h : Chain 1 A m v a b) {K : Matrix ι ι R} (hK : Kᵀ = -K) (hKA : K * A = A * K) :
    ∀ i ≤ m, ∀ j ≤ m, v i ⬝ᵥ (K *ᵥ v j) = 0 := by
  let S : Submodule R (ι → R) := Submodule.span R (Set.range fun k : Nat => A ^ k *ᵥ v 0)
  have hS : ∀ x ∈ S, A *ᵥ x ∈ S := by
    intro x hx
    induction hx using Submodule.span_induction with
    | mem x hx =>
      obtain ⟨k, rfl⟩ := hx
      refine Submodule.subset_span ⟨k + 1, ?_⟩
      simp only [mulVec_mulVec, ← pow_succ']
    | zero => simp
    | add x y _ _ hx hy =>
      rw [mulVec_add]
      exact S.add_mem hx hy
    | smul c x _ hx =>
      rw [mulVec_smul]
      exact S.smul_mem c hx
  have hv : ∀ j ≤ m, v j ∈ S := by
    intro j
    induction j using Nat.strong_induction_on with
    | _ j ih =>
      intro hj
      match j with
      | 0 => exact Submodule.subset_span ⟨0, by simp⟩
      | 1 =>
        have e := h.first (by omega)
        have h0 := ih 0 (by omega) (by omega)
        have : v 1 = (b 0)⁻¹ • (A *ᵥ v 0 - a 0 • v 0) := by
          rw [← e, smul_smul, inv_mul_cancel₀ (h.ne 0 (by omega)), one_smul]
        rw [this]
        exact S.smul_mem _ (S.sub_mem (hS _ h0) (S.smul_mem _ h0))
      | j + 2 =>
        have e := h.step j (by omega)
        have h0 := ih j (by omega) (by omega)
        have h1 := ih (j + 1) (by omega) (by omega)
        have : v (j + 2) = (b (j + 1))⁻¹ • (A *ᵥ v (j + 1) - a (j + 1) • v (j + 1) - b j • v j) := by
          rw [← e, smul_smul, inv_mul_cancel₀ (h.ne (j + 1) (by omega)), one_smul]
        rw [this]
        exact S.smul_mem _ (S.sub_mem (S.sub_mem (hS _ h1) (S.smul_mem _ h1)) (S.smul_mem _ h0))
  have hcomm : ∀ k, K * A ^ k = A ^ k * K := fun k =>
    (show Commute K (A ^ k) from Commute.pow_right hKA k)
  have hAk : ∀ k, (A ^ k)ᵀ = A ^ k := fun k => by rw [transpose_pow, hA]
  have base : ∀ k l, (A ^ k *ᵥ v 0) ⬝ᵥ (K *ᵥ (A ^ l *ᵥ v 0)) = 0 := by
    intro k l
    have h1 : (A ^ k *ᵥ v 0) ⬝ᵥ (K *ᵥ (A ^ l *ᵥ v 0)) = v 0 ⬝ᵥ ((K * A ^ (k + l)) *ᵥ v 0) := by
      rw [dotProduct_comm, dotProduct_mulVec, dotProduct_comm, ← mulVec_transpose, hAk,
        mulVec_mulVec, mulVec_mulVec, ← hcomm, Matrix.mul_assoc, ← pow_add]
    have h2 : (K * A ^ (k + l))ᵀ = -(K * A ^ (k + l)) := by
      rw [transpose_mul, hAk, hK, hcomm]
      simp
    have h3 : v 0 ⬝ᵥ ((K * A ^ (k + l)) *ᵥ v 0) = -(v 0 ⬝ᵥ ((K * A ^ (k + l)) *ᵥ v 0)) := by
      conv_lhs => rw [dotProduct_mulVec, ← mulVec_transpose, h2, dotProduct_comm, neg_mulVec,
        dotProduct_neg]
    rw [h1]
    linarith
  intro i hi j hj
  have hl : ∀ x ∈ S, ∀ l, x ⬝ᵥ (K *ᵥ (A ^ l *ᵥ v 0)) = 0 := by
    intro x hx l
    induction hx using Submodule.span_induction with
    | mem x hx =>
      obtain ⟨k, rfl⟩ := hx
      exact base k l
    | zero => simp
    | add x y _ _ hx hy => rw [add_dotProduct, hx, hy, add_zero]
    | smul c x _ hx => rw [smul_dotProduct, hx, smul_zero]
  have hr : ∀ x ∈ S, ∀ y ∈ S, x ⬝ᵥ (K *ᵥ y) = 0 := by
    intro x hx y hy
    induction hy using Submodule.span_induction with
    | mem y hy =>
      obtain ⟨k, rfl⟩ := hy
      exact hl x hx k
    | zero => simp
    | add y z _ _ hy hz => rw [mulVec_add, dotProduct_add, hy, hz, add_zero]
    | smul c y _ hy => rw [mulVec_smul, dotProduct_smul, hy, smul_zero]
  exact hr _ (hv i hi) _ (hv j hj)

/-- Orthogonal matrices that commute with `A`, whose quotients are skew. -/
structure Units (A : Matrix ι ι R) {κ : Type} (Q : κ → Matrix ι ι R) : Prop where
  comm : ∀ c, Q c * A = A * Q c
  orth : ∀ c, (Q c)ᵀ * Q c = 1
  skew : ∀ c c', c ≠ c' → ((Q c)ᵀ * Q c')ᵀ = -((Q c)ᵀ * Q c')

theorem one_units (A : Matrix ι ι R) : Units A fun _ : Unit => (1 : Matrix ι ι R) :=
  ⟨by simp, by simp, fun c c' h => absurd rfl h⟩

section Frame

variable {κ : Type} {Q : κ → Matrix ι ι R} {m N : Nat} {v : Nat → ι → R} {a b : Nat → R}

/-- The columns `Q c v_j`. -/
def frame (Q : κ → Matrix ι ι R) (v : Nat → ι → R) (N : Nat) : Matrix ι (κ × Fin N) R :=
  fun i p => (Q p.1 *ᵥ v p.2) i

theorem frame_col (X : Matrix ι ι R) (p q : κ × Fin N) :
    ((frame Q v N)ᵀ * (X * frame Q v N)) p q = (Q p.1 *ᵥ v p.2) ⬝ᵥ (X *ᵥ (Q q.1 *ᵥ v q.2)) := by
  rw [Matrix.mul_apply]
  rfl

variable [DecidableEq κ]

theorem frame_entry (hA : Aᵀ = A) (hQ : Units A Q) (hN : N = m + 1) (h : Chain 1 A m v a b) {X : Matrix ι ι R}
    (hX : X = 1 ∨ X = A) (p q : κ × Fin N) :
    ((frame Q v N)ᵀ * (X * frame Q v N)) p q =
      if p.1 = q.1 then v p.2 ⬝ᵥ (X *ᵥ v q.2) else 0 := by
  have hc : ∀ c, Q c * X = X * Q c := by
    rcases hX with rfl | rfl
    · simp
    · exact hQ.comm
  have hmove : (Q p.1 *ᵥ v p.2) ⬝ᵥ (X *ᵥ (Q q.1 *ᵥ v q.2)) =
      v p.2 ⬝ᵥ (((Q p.1)ᵀ * Q q.1) *ᵥ (X *ᵥ v q.2)) := by
    rw [dotProduct_comm, dotProduct_mulVec, dotProduct_comm, ← mulVec_transpose]
    simp only [mulVec_mulVec]
    rw [← hc, ← Matrix.mul_assoc]
  rw [frame_col, hmove]
  split_ifs with he
  · rw [he, hQ.orth, one_mulVec]
  · have hKt : ∀ c, (Q c)ᵀ * A = A * (Q c)ᵀ := fun c => by
      have := congrArg transpose (hQ.comm c)
      rw [transpose_mul, transpose_mul, hA] at this
      exact this.symm
    have hKA : ((Q p.1)ᵀ * Q q.1) * A = A * ((Q p.1)ᵀ * Q q.1) := by
      rw [Matrix.mul_assoc, hQ.comm, ← Matrix.mul_assoc, hKt, Matrix.mul_assoc]
    rcases hX with rfl | rfl
    · rw [one_mulVec]
      exact Chain.skew hA h (hQ.skew _ _ he) hKA _ (by omega) _ (by omega)
    · rw [mulVec_mulVec]
      refine Chain.skew hA h (K := ((Q p.1)ᵀ * Q q.1) * X) ?_ ?_ _ (by omega) _ (by omega)
      · rw [transpose_mul, hA, hQ.skew _ _ he, hKA]
        simp
      · rw [hKA, Matrix.mul_assoc, hKA]

theorem frame_orth [Fintype κ] (hA : Aᵀ = A) (hQ : Units A Q) (hN : N = m + 1) (h : Chain 1 A m v a b) :
    (frame Q v N)ᵀ * frame Q v N = 1 := by
  ext p q
  have := frame_entry hA hQ hN h (.inl rfl) p q
  rw [Matrix.one_mul, one_mulVec] at this
  rw [this, Matrix.one_apply]
  have ho := h.orth ip_one_comm (ip_one_adjoint hA)
  by_cases h1 : p.1 = q.1
  · rw [if_pos h1]
    rcases Nat.lt_trichotomy p.2.1 q.2.1 with hij | hij | hij
    · rw [← ip_one, ho _ (by omega) _ hij, if_neg]
      rintro rfl
      omega
    · have : p = q := Prod.ext h1 (Fin.ext hij)
      subst this
      rw [← ip_one, h.norm _ (by omega), if_pos rfl]
    · rw [← ip_one, ip_one_comm, ho _ (by omega) _ hij, if_neg]
      rintro rfl
      omega
  · rw [if_neg h1, if_neg]
    rintro rfl
    exact h1 rfl

/-- There are no more orthonormal vectors than dimensions. -/
theorem frame_card [Fintype κ] (hA : Aᵀ = A) (hQ : Units A Q) (hN : N = m + 1) (h : Chain 1 A m v a b) :
    Fintype.card κ * N ≤ Fintype.card ι := by
  have ho := frame_orth hA hQ hN h
  have hi : Function.Injective (frame Q v N).mulVecLin := by
    intro x y hxy
    have := congrArg (fun z => (frame Q v N)ᵀ *ᵥ z) hxy
    simpa [mulVecLin_apply, mulVec_mulVec, ho] using this
  have := LinearMap.finrank_le_finrank_of_injective hi
  simpa using this

open MatrixExp.Spec in
/-- With as many vectors as dimensions the small matrix has the same eigenvalues. -/
theorem frame_eigen [Fintype κ] [Nonempty κ] (hA : Aᵀ = A) (hQ : Units A Q) (hN : N = m + 1)
    (h : Chain 1 A m v a b) (hcard : Fintype.card ι = Fintype.card κ * N) (J : Matrix (Fin N) (Fin N) R)
    (hJ : ∀ i j : Fin N, v i ⬝ᵥ (A *ᵥ v j) = J i j) (t : R) : Eigenvalue J t ↔ Eigenvalue A t := by
  have ho := frame_orth hA hQ hN h
  have ho' : frame Q v N * (frame Q v N)ᵀ = 1 :=
    (Matrix.mul_eq_one_comm_of_card_eq _ _ _ (by simp [hcard])).1 ho
  have hB : ∀ (x : κ × Fin N → R) (p : κ × Fin N),
      (((frame Q v N)ᵀ * (A * frame Q v N)) *ᵥ x) p = (J *ᵥ fun i => x (p.1, i)) p.2 := by
    intro x p
    simp only [mulVec, dotProduct, Fintype.sum_prod_type, frame_entry hA hQ hN h (.inr rfl)]
    rw [sum_eq_single p.1]
    · refine sum_congr rfl fun j _ => ?_
      rw [if_pos rfl]
      exact congrArg (· * x (p.1, j)) (hJ p.2 j)
    · intro c _ hc
      refine sum_eq_zero fun j _ => ?_
      rw [if_neg (Ne.symm hc), zero_mul]
    · simp
  constructor
  · rintro ⟨y, hy, he⟩
    obtain ⟨c⟩ := ‹Nonempty κ›
    set x : κ × Fin N → R := fun p => if p.1 = c then y p.2 else 0 with hx
    have hx0 : x ≠ 0 := fun e => hy (funext fun i => by simpa [hx] using congrFun e (c, i))
    have hBx : ((frame Q v N)ᵀ * (A * frame Q v N)) *ᵥ x = t • x := by
      funext p
      rw [hB]
      by_cases hp : p.1 = c
      · have : (fun i => x (p.1, i)) = y := by
          funext i
          simp [hx, hp]
        rw [this, he]
        simp [hx, hp]
      · have : (fun i => x (p.1, i)) = 0 := by
          funext i
          simp [hx, hp]
        rw [this, mulVec_zero]
        simp [hx, hp]
    refine ⟨frame Q v N *ᵥ x, fun e => hx0 ?_, ?_⟩
    · have := congrArg (fun z => (frame Q v N)ᵀ *ᵥ z) e
      simpa [mulVec_mulVec, ho] using this
    · have := congrArg (fun z => frame Q v N *ᵥ z) hBx
      simp only [mulVec_mulVec, mulVec_smul] at this
      rw [← Matrix.mul_assoc, ho', Matrix.one_mul] at this
      rw [mulVec_mulVec, this]
  · rintro ⟨u, hu, he⟩
    set x := (frame Q v N)ᵀ *ᵥ u with hx
    have hPx : frame Q v N *ᵥ x = u := by rw [hx, mulVec_mulVec, ho', one_mulVec]
    have hx0 : x ≠ 0 := fun e => hu (by rw [← hPx, e, mulVec_zero])
    have hBx : ((frame Q v N)ᵀ * (A * frame Q v N)) *ᵥ x = t • x := by
      rw [← mulVec_mulVec, ← mulVec_mulVec, hPx, he, mulVec_smul]
    obtain ⟨p, hp⟩ := Function.ne_iff.1 hx0
    refine ⟨fun i => x (p.1, i), fun e => hp (congrFun e p.2), ?_⟩
    funext i
    have := congrFun hBx (p.1, i)
    rw [hB] at this
    exact this

end Frame

section Results

open MatrixExp.Spec Lmi.Spec Spec

theorem eigenvalues_some {tri : List R → List R → List R} {r : ι → R} {iters : Nat} {l : List R}
    (h : eigenvalues sqrt tri A r iters = .ok (some l)) :
    ∃ q, lanczos sqrt A r iters = .ok (some q) ∧ l = tri q.1 q.2 := by
  unfold eigenvalues at h
  cases hq : lanczos sqrt A r iters with
  | ok o =>
    rw [hq] at h
    obtain ⟨q, h1, h2⟩ := Option.map_eq_some_iff.1 (Outcome.ok.inj h)
    exact ⟨q, by rw [h1], h2.symm⟩
  | throws => rw [hq] at h; cases h
  | ub => rw [hq] at h; cases h
  | diverges => rw [hq] at h; cases h

theorem jacobi_entry (hA : Aᵀ = A) {q : List R × List R} {v : Nat → ι → R} {a b : Nat → R}
    (h : Chain 1 A q.2.length v a b) (hl : q.1.length = q.2.length + 1)
    (h1 : ∀ j ≤ q.2.length, q.1.getD j 0 = a j) (h2 : ∀ j < q.2.length, q.2.getD j 0 = b j)
    (i j : Fin q.1.length) : v i ⬝ᵥ (A *ᵥ v j) = jacobi q.1 q.2 i j := by
  rw [← ip_one, h.tri ip_one_comm (ip_one_adjoint hA) (by omega) (by omega)]
  unfold jacobi
  by_cases hij : i = j
  · subst hij
    rw [if_pos rfl, if_pos rfl, h1 _ (by omega)]
  · have hij' : i.1 ≠ j.1 := fun e => hij (Fin.ext e)
    rw [if_neg hij', if_neg hij]
    split_ifs with h3 h4
    · rw [h2 _ (by omega)]
    · rw [h2 _ (by omega)]
    · rfl

variable {tri : List R → List R → List R}

theorem ritz (hsq : ∀ x, 0 ≤ x → SqrtAt sqrt x) (hA : Aᵀ = A) (ht : AllEigenvalues tri) {r : ι → R}
    {iters : Nat} {l : List R} (h : eigenvalues sqrt tri A r iters = .ok (some l)) :
    ∀ t ∈ l, Rayleigh A t := by
  obtain ⟨q, hq, rfl⟩ := eigenvalues_some h
  obtain ⟨-, h2, v, a, b, h3, h4, h5, -⟩ := plain_chain hsq hA hq
  intro t hm
  obtain ⟨z, hz, he⟩ := h3.ritz ip_one_comm (ip_one_adjoint hA) h2 h4 h5 ((ht _ _ h2 t).1 hm)
  rw [ip_one] at hz he
  rw [ip_one] at he
  refine ⟨z, fun e => ?_, he⟩
  rw [e, zero_dotProduct] at hz
  exact hz.false

theorem exact (hsq : ∀ x, 0 ≤ x → SqrtAt sqrt x) (hA : Aᵀ = A) (ht : AllEigenvalues tri) {κ : Type}
    [Fintype κ] [DecidableEq κ] [Nonempty κ] {Q : κ → Matrix ι ι R} (hQ : Units A Q) {r : ι → R}
    {iters : Nat} {l : List R} (hcard : Fintype.card ι = Fintype.card κ * iters)
    (h : eigenvalues sqrt tri A r iters = .ok (some l)) (t : R) : t ∈ l ↔ Eigenvalue A t := by
  obtain ⟨q, hq, rfl⟩ := eigenvalues_some h
  obtain ⟨h1, h2, v, a, b, h3, h4, h5, -⟩ := plain_chain hsq hA hq
  rw [ht _ _ h2]
  exact frame_eigen hA hQ h2 h3 (by rw [hcard, h2, h1]) _ (jacobi_entry hA h3 h2 h4 h5) t

theorem overrun (hsq : ∀ x, 0 ≤ x → SqrtAt sqrt x) (hA : Aᵀ = A) {κ : Type}
    [Fintype κ] [DecidableEq κ] {Q : κ → Matrix ι ι R} (hQ : Units A Q) {r : ι → R}
    {iters : Nat} (hcard : Fintype.card ι < Fintype.card κ * iters) :
    lanczos sqrt A r iters = .ok none := by
  cases hq : lanczos sqrt A r iters with
  | ok o =>
    cases o with
    | none => rfl
    | some q =>
      obtain ⟨h1, h2, v, a, b, h3, h4, h5, -⟩ := plain_chain hsq hA hq
      have := frame_card hA hQ rfl h3
      rw [h1] at this
      omega
  | throws | ub | diverges =>
    unfold lanczos at hq
    simp only at hq
    by_cases h0 : iters = 0
    · subst h0
      omega
    · rw [if_neg h0] at hq
      split_ifs at hq

/-- The recurrence gets to the end just if the powers are independent. -/
theorem lanczos_iff (hsq : ∀ x, 0 ≤ x → SqrtAt sqrt x) (hA : Aᵀ = A) {r : ι → R} {iters : Nat}
    (h0 : iters ≠ 0) : (∃ q, lanczos sqrt A r iters = .ok (some q)) ↔
      LinearIndependent R fun k : Fin iters => A ^ k.1 *ᵥ r := by
  constructor
  · rintro ⟨q, hq⟩
    obtain ⟨h1, h2, v, a, b, h3, h4, h5, s, h6⟩ := plain_chain hsq hA hq
    have ho := frame_orth hA (one_units A) (N := iters) (by omega) h3
    have hi : Function.Injective (frame (fun _ : Unit => (1 : Matrix ι ι R)) v iters).mulVecLin := by
      intro x y hxy
      have := congrArg (fun z => (frame (fun _ : Unit => (1 : Matrix ι ι R)) v iters)ᵀ *ᵥ z) hxy
      simpa [mulVecLin_apply, mulVec_mulVec, ho] using this
    rw [linearIndependent_iff_card_le_finrank_span]
    have h7 := LinearMap.finrank_range_of_inj hi
    have h8 : LinearMap.range (frame (fun _ : Unit => (1 : Matrix ι ι R)) v iters).mulVecLin ≤
        Submodule.span R (Set.range fun k : Fin iters => A ^ k.1 *ᵥ r) := by
      rw [Matrix.range_mulVecLin, Submodule.span_le]
      rintro _ ⟨⟨u, j⟩, rfl⟩
      have h9 := Chain.kspan h3 h6 j.1 (by omega)
      have h10 : (frame (fun _ : Unit => (1 : Matrix ι ι R)) v iters).col (u, j) = v j.1 := by
        funext i
        simp [frame, Matrix.col]
      rw [h10]
      refine Submodule.span_mono ?_ h9
      rintro _ ⟨k, hk, rfl⟩
      have hk : k < j.1 + 1 := hk
      exact ⟨⟨k, by omega⟩, rfl⟩
    have h9 := Submodule.finrank_mono h8
    rw [h7] at h9
    simpa [Set.finrank] using h9
  · intro h
    have hk := notMem_kspan h
    have hr : r ≠ 0 := by
      rintro rfl
      refine hk 0 (by omega) ?_
      simp
    have hb : sqrt (r ⬝ᵥ r) ≠ 0 := by
      intro e
      have := (hsq _ (dot_nonneg r)).2
      rw [e, mul_zero] at this
      exact (dot_pos hr).ne this
    have hrm : ∀ c : R, (fun i => r i / c) ∈ kspan A r 1 := by
      intro c
      have : (fun i => r i / c) = c⁻¹ • r := by
        funext i
        simp [div_eq_inv_mul]
      rw [this]
      exact Submodule.smul_mem _ _ (Submodule.subset_span ⟨0, by simp, by simp⟩)
    unfold lanczos
    simp only [if_neg h0, if_neg hb]
    set norm := sqrt (r ⬝ᵥ r)
    set v : ι → R := fun i => r i / norm with hv
    have hve : v = norm⁻¹ • r := by
      funext i
      simp [hv, div_eq_inv_mul]
    obtain ⟨l, hl⟩ := loop_defined hsq (r := r) (A := A) (iters - 1) 1
      (fun i _ hi => hk i (by omega)) one_pos v (A *ᵥ v - ((v ᵥ* A) ⬝ᵥ v) • v) norm⁻¹
      (inv_ne_zero hb) (hrm norm) (by
        have := Submodule.smul_mem _ (-((v ᵥ* A) ⬝ᵥ v)) (hrm norm)
        convert this using 1
        rw [pow_one, neg_smul]
        conv_lhs => rw [hve, mulVec_smul]
        rw [← hve]
        abel)
    exact ⟨_, by rw [hl]; rfl⟩

end Results

end Real

section Hyper

open Hyper Hyper.Spec HermLmi

section Table

variable {d : Nat} {κ : Type} [Fintype κ] [DecidableEq κ]

/-- Multiplication from the right with a unit. -/
def rmat (c : Fin d) : Matrix (Fin d × κ) (Fin d × κ) R := fun p q =>
  if p.2 = q.2 then (gam q.1 c p.1 : R) else 0

theorem rmat_rmat (c c' : Fin d) (p q : Fin d × κ) :
    (((rmat c)ᵀ * rmat c' : Matrix (Fin d × κ) (Fin d × κ) R)) p q =
      if p.2 = q.2 then ((∑ k : Fin d, gam p.1 c k * gam q.1 c' k : Int) : R) else 0 := by
  simp only [Matrix.mul_apply, Matrix.transpose_apply, rmat, Fintype.sum_prod_type]
  split_ifs with h
  · push_cast
    refine sum_congr rfl fun k _ => ?_
    rw [sum_eq_single p.2]
    · simp [h]
    · intro s _ hs
      rw [if_neg hs, zero_mul]
    · simp
  · refine sum_eq_zero fun k _ => sum_eq_zero fun s _ => ?_
    by_cases hs : s = p.2
    · subst hs
      rw [if_neg h, mul_zero]
    · rw [if_neg hs, zero_mul]

theorem rmat_comm (hd : d = 1 ∨ d = 2 ∨ d = 4) (X : Hyp d κ κ R) (c : Fin d) :
    rmat c * lmat X = lmat X * rmat c := by
  ext p q
  simp only [Matrix.mul_apply, rmat, lmat, Fintype.sum_prod_type]
  have h1 : ∀ i : Fin d, ∑ s : κ, (if p.2 = s then (gam i c p.1 : R) else 0) *
      ∑ a : Fin d, (gam a q.1 i : R) * X a s q.2 =
      ∑ a : Fin d, X a p.2 q.2 * ((gam a q.1 i * gam i c p.1 : Int) : R) := by
    intro i
    rw [sum_eq_single p.2]
    · rw [if_pos rfl, mul_sum]
      refine sum_congr rfl fun a _ => ?_
      push_cast
      ring
    · intro s _ hs
      rw [if_neg (Ne.symm hs), zero_mul]
    · simp
  have h2 : ∀ i : Fin d, ∑ s : κ, (∑ a : Fin d, (gam a i p.1 : R) * X a p.2 s) *
      (if s = q.2 then (gam q.1 c i : R) else 0) =
      ∑ a : Fin d, X a p.2 q.2 * ((gam q.1 c i * gam a i p.1 : Int) : R) := by
    intro i
    rw [sum_eq_single q.2]
    · rw [if_pos rfl, sum_mul]
      refine sum_congr rfl fun a _ => ?_
      push_cast
      ring
    · intro s _ hs
      rw [if_neg hs, mul_zero]
    · simp
  simp only [h1, h2]
  refine sum_comm.trans (Eq.trans ?_ sum_comm)
  refine sum_congr rfl fun a _ => ?_
  rw [← mul_sum, ← mul_sum, ← Int.cast_sum, ← Int.cast_sum, assoc_table hd a q.1 c p.1]

theorem rmat_units (hd : d = 1 ∨ d = 2 ∨ d = 4) (X : Hyp d κ κ R) :
    Units (lmat X) (rmat : Fin d → Matrix (Fin d × κ) (Fin d × κ) R) := by
  have hD := dim_of_assoc hd
  refine ⟨rmat_comm hd X, fun c => ?_, fun c c' hc => ?_⟩
  · ext p q
    rw [rmat_rmat, Matrix.one_apply]
    have h := norm_table hD p.1 c q.1 c
    have e : ∑ k : Fin d, gam q.1 c k * gam p.1 c k = ∑ k : Fin d, gam p.1 c k * gam q.1 c k :=
      sum_congr rfl fun k _ => mul_comm _ _
    rw [e] at h
    by_cases h1 : p.1 = q.1
    · have h2 : ∑ k : Fin d, gam p.1 c k * gam q.1 c k = 1 := by
        rw [if_pos ⟨h1, rfl⟩] at h
        omega
      rw [h2]
      by_cases h3 : p.2 = q.2
      · rw [if_pos h3, if_pos (Prod.ext h1 h3), Int.cast_one]
      · rw [if_neg h3, if_neg fun e => h3 (congrArg Prod.snd e)]
    · have h2 : ∑ k : Fin d, gam p.1 c k * gam q.1 c k = 0 := by
        rw [if_neg fun e => h1 e.1] at h
        omega
      rw [h2, Int.cast_zero, ite_self, if_neg fun e => h1 (congrArg Prod.fst e)]
  · ext p q
    rw [Matrix.transpose_apply, Matrix.neg_apply, rmat_rmat, rmat_rmat]
    have h := norm_table hD p.1 c q.1 c'
    rw [if_neg fun e => hc e.2] at h
    by_cases h1 : p.2 = q.2
    · rw [if_pos h1, if_pos h1.symm, ← Int.cast_neg, eq_neg_of_add_eq_zero_right h]
    · rw [if_neg h1, if_neg (Ne.symm h1), neg_zero]

end Table

variable {d n : Nat} [NeZero d] {sqrt : R → R}

theorem squaredNorm_flat (x : Col d n R) : squaredNorm x = flat x ⬝ᵥ flat x := by
  simp [squaredNorm, flat, dotProduct, Fintype.sum_prod_type]

theorem quotient_flat (hd : Dim d) (A : HMat d n R) (v : Col d n R) :
    quotient A v = (flat v ᵥ* lmat A) ⬝ᵥ flat v := by
  have := inner_fl hd (⟨v, v⟩ : HermLmi.Pair d n R) ⟨v, multiply A v⟩
  unfold HermLmi.inner at this
  unfold quotient
  rw [this, ← dotProduct_mulVec, ← flat_multiply]
  rfl

theorem flat_divide (w : Col d n R) (s : R) :
    flat (scalarMultiply w (1 / s)) = fun i => flat w i / s := by
  rw [flat_scalar]
  funext i
  simp [div_eq_inv_mul]

theorem flat_sub (u v : Col d n R) (s : R) :
    flat (Hyper.add u (scalarMultiply v (-s))) = flat u - s • flat v := by
  rw [flat_add, flat_scalar, neg_smul, sub_eq_add_neg]

theorem loopH_eq (hd : Dim d) (A : HMat d n R) : ∀ (k : Nat) (u w : Col d n R),
    loopH sqrt A k u w = loop sqrt (lmat A) k (flat u) (flat w) := by
  intro k
  induction k with
  | zero => exact fun u w => rfl
  | succ k ih =>
    intro u w
    rw [loopH, loop]
    simp only [ih, squaredNorm_flat, quotient_flat hd, flat_divide, flat_sub, flat_multiply]

theorem lanczosH_eq (hd : Dim d) (A : HMat d n R) (r : Col d n R) (iters : Nat) :
    lanczosH sqrt A r iters = lanczos sqrt (lmat A) (flat r) iters := by
  unfold lanczosH lanczos
  simp only [loopH_eq hd, squaredNorm_flat, quotient_flat hd, flat_divide, flat_sub, flat_multiply]

theorem eigenvaluesH_eq (hd : Dim d) (tri : List R → List R → List R) (A : HMat d n R) (r : Col d n R)
    (iters : Nat) : eigenvaluesH sqrt tri A r iters = eigenvalues sqrt tri (lmat A) (flat r) iters := by
  unfold eigenvaluesH eigenvalues
  rw [lanczosH_eq hd]

theorem rayleigh_flat {A : HMat d n R} {t : R} (h : Spec.Rayleigh (lmat A) t) : Spec.RayleighH A t := by
  obtain ⟨x, hx, he⟩ := h
  obtain ⟨v, rfl⟩ := flat_surjective x
  refine ⟨v, fun e => hx (by rw [e]; rfl), ?_⟩
  rw [form_eq, he, ← squaredNorm_flat]
  rfl

end Hyper

end Verif.Plain
