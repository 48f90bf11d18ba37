import Verif.Lemmas.Hyper
import Verif.Lemmas.Lmi
import Verif.Spec.HermitianLmi

/-!
# Lemmas on Hermitian linear matrix inequalities

Multiplication from the left with a hypercomplex matrix is a real matrix.
-/

namespace Verif.Hyper

open Matrix Finset Hyper.Spec

variable {R : Type} {ι κ : Type} [Fintype ι] [Fintype κ] {d : Nat}

section Ring

variable [CommRing R]

/-- A column as a real vector. -/
def flat (v : Hyp d κ Unit R) : Fin d × κ → R := fun q => v q.1 q.2 ()

/-- Left multiplication as a real matrix. -/
def lmat (X : Hyp d ι κ R) : Matrix (Fin d × ι) (Fin d × κ) R :=
  fun p q => ∑ i : Fin d, (gam i q.1 p.1 : R) * X i p.2 q.2

theorem flat_injective {u v : Hyp d κ Unit R} (h : flat u = flat v) : u = v := by
  funext c r s
  exact congrFun h (c, r)

theorem flat_surjective (x : Fin d × κ → R) : ∃ v : Hyp d κ Unit R, flat v = x :=
  ⟨fun c r _ => x (c, r), rfl⟩

theorem flat_add (u v : Hyp d κ Unit R) : flat (add u v) = flat u + flat v := rfl

theorem flat_scalar (v : Hyp d κ Unit R) (s : R) : flat (scalarMultiply v s) = s • flat v := by
  funext q
  simp [flat, scalarMultiply, mul_comm]

theorem flat_multiply (X : Hyp d ι κ R) (v : Hyp d κ Unit R) :
    flat (multiply X v) = lmat X *ᵥ flat v := by
  funext p
  simp only [flat, multiply_apply, lmat, mulVec, dotProduct, Fintype.sum_prod_type, Matrix.sum_apply,
    Matrix.smul_apply, Matrix.mul_apply, smul_eq_mul, sum_mul, mul_sum]
  rw [sum_comm]
  refine sum_congr rfl fun j _ => ?_
  rw [sum_comm]
  exact sum_congr rfl fun k _ => sum_congr rfl fun i _ => by ring

theorem ext_mulVec {M N : Matrix (Fin d × ι) (Fin d × κ) R} [DecidableEq κ]
    (h : ∀ v : Hyp d κ Unit R, M *ᵥ flat v = N *ᵥ flat v) : M = N := by
  refine Matrix.ext_of_mulVec_single fun q => ?_
  obtain ⟨v, hv⟩ := flat_surjective (Pi.single q (1 : R))
  rw [← hv]
  exact h v

theorem lmat_multiply [DecidableEq ι] (hd : d = 1 ∨ d = 2 ∨ d = 4) (X Y : Hyp d ι ι R) :
    lmat (multiply X Y) = lmat X * lmat Y := by
  refine ext_mulVec fun v => ?_
  rw [← flat_multiply, multiply_assoc hd, flat_multiply, flat_multiply, mulVec_mulVec]

theorem lmat_add (X Y : Hyp d ι κ R) : lmat (add X Y) = lmat X + lmat Y := by
  ext p q
  simp [lmat, add, mul_add, sum_add_distrib]

theorem lmat_scalar (X : Hyp d ι κ R) (s : R) : lmat (scalarMultiply X s) = s • lmat X := by
  ext p q
  simp only [lmat, scalarMultiply, Matrix.smul_apply, smul_eq_mul, mul_sum]
  exact sum_congr rfl fun i _ => by ring

theorem lmat_identity [DecidableEq ι] (hd : Dim d) : lmat (identity d : Hyp d ι ι R) = 1 := by
  refine ext_mulVec fun v => ?_
  rw [← flat_multiply, one_multiply hd, one_mulVec]

theorem traceInner_flat (u v : Hyp d κ Unit R) : traceInner u v = flat u ⬝ᵥ flat v := by
  simp [traceInner, flat, dotProduct, Fintype.sum_prod_type]

theorem lmat_conj [DecidableEq ι] [DecidableEq κ] (hd : Dim d) (X : Hyp d ι κ R) :
    lmat (conjTranspose X) = (lmat X)ᵀ := by
  refine ext_mulVec fun v => ?_
  refine dotProduct_eq _ _ fun x => ?_
  obtain ⟨u, rfl⟩ := flat_surjective x
  rw [← flat_multiply, dotProduct_comm, ← traceInner_flat, ← traceInner_multiply_left hd,
    traceInner_flat, flat_multiply, mulVec_transpose, ← dotProduct_mulVec, dotProduct_comm]

theorem trace_table (hd : Dim d) (i : Fin d) :
    (∑ c : Fin d, gam i c c) = if i.1 = 0 then (d : Int) else 0 := by
  rcases hd with rfl | rfl | rfl | rfl
  all_goals
    revert i
    decide +kernel

theorem trace_lmat [DecidableEq ι] (hd : Dim d) (X : Hyp d ι ι R) :
    (lmat X).trace = (d : R) * retr X := by
  simp only [Matrix.trace, Matrix.diag, lmat, Fintype.sum_prod_type, retr, mul_sum]
  have : ∀ c : Fin d, ∑ r : ι, ∑ i : Fin d, (gam i c c : R) * X i r r =
      ∑ i : Fin d, (gam i c c : R) * ∑ r : ι, X i r r := by
    intro c
    rw [sum_comm]
    exact sum_congr rfl fun i _ => by rw [mul_sum]
  simp only [this]
  rw [sum_comm]
  refine sum_congr rfl fun i _ => ?_
  rw [← sum_mul]
  have ht := congrArg (Int.cast : Int → R) (trace_table hd i)
  rw [Int.cast_sum] at ht
  rw [ht]
  split_ifs <;> simp

theorem retr_zero [NeZero d] (X : Hyp d ι ι R) : retr X = (X 0).trace := by
  unfold retr
  rw [sum_eq_single 0]
  · simp
  · intro i _ hi
    exact if_neg fun h : i.1 = 0 => hi (Fin.ext (by simpa using h))
  · simp

theorem lmat_injective [DecidableEq κ] (hd : Dim d) {X Y : Hyp d ι κ R} (h : lmat X = lmat Y) :
    X = Y := by
  have h0 : 0 < d := by
    rcases hd with rfl | rfl | rfl | rfl <;> omega
  have key : ∀ (Z : Hyp d ι κ R) (c : Fin d) (r : ι) (k : κ), lmat Z (c, r) (⟨0, h0⟩, k) = Z c r k := by
    intro Z c r k
    have := congrFun (congrFun (congrFun (multiply_one hd Z) c) r) k
    rw [multiply_apply] at this
    rw [← this]
    simp only [lmat, Matrix.sum_apply, Matrix.smul_apply, smul_eq_mul]
    refine sum_congr rfl fun i _ => ?_
    rw [sum_eq_single ⟨0, h0⟩]
    · simp [identity]
    · intro j _ hj
      have : j.1 ≠ 0 := fun e => hj (Fin.ext e)
      simp [identity, this]
    · simp
  funext c
  ext r k
  rw [← key X, ← key Y, h]

end Ring

end Verif.Hyper

namespace Verif.HermLmi

open Matrix Finset Hyper Hyper.Spec

variable {d n : Nat}

section Ring

variable {R : Type} [CommRing R]

theorem form_eq (X : HMat d n R) (v : Col d n R) :
    Spec.form X v = flat v ⬝ᵥ (lmat X *ᵥ flat v) := by
  rw [← flat_multiply]
  simp [Spec.form, dotProduct, flat, Fintype.sum_prod_type]

theorem hermitian_lmat (hd : Dim d) (X : HMat d n R) :
    Hyper.Spec.Hermitian X ↔ (lmat X)ᵀ = lmat X := by
  rw [hermitian_iff, ← lmat_conj hd]
  exact ⟨fun h => by rw [h], fun h => lmat_injective hd h⟩

theorem eigenvalue_lmat {R : Type} [Field R] (X : HMat d n R) (μ : R) :
    Spec.Eigenvalue X μ ↔ MatrixExp.Spec.Eigenvalue (lmat X) μ := by
  constructor
  · rintro ⟨v, hv, h⟩
    refine ⟨flat v, fun h0 => hv (flat_injective (h0.trans rfl)), ?_⟩
    rw [← flat_multiply]
    funext q
    exact h q.1 q.2
  · rintro ⟨x, hx, h⟩
    obtain ⟨v, rfl⟩ := flat_surjective x
    refine ⟨v, fun h0 => hx (by rw [h0]; rfl), fun c r => ?_⟩
    rw [← flat_multiply] at h
    exact congrFun h (c, r)

end Ring

theorem posDef_lmat (hd : Dim d) (X : HMat d n ℝ) : Spec.PosDef X ↔ (lmat X).PosDef := by
  rw [Matrix.posDef_iff_dotProduct_mulVec]
  unfold Spec.PosDef
  rw [hermitian_lmat hd]
  refine and_congr ?_ ?_
  · rw [Matrix.IsHermitian, conjTranspose_eq_transpose_of_trivial]
  · constructor
    · intro h x hx
      obtain ⟨v, rfl⟩ := flat_surjective x
      have := h v fun h0 => hx (by rw [h0]; rfl)
      rw [form_eq] at this
      simpa using this
    · intro h v hv
      rw [form_eq]
      simpa using h (x := flat v) fun h0 => hv (flat_injective (h0.trans rfl))

section Tay

variable {R : Type} [Field R] {ι : Type} [Fintype ι] [DecidableEq ι]

/-- The polynomial of the approximation at a real matrix. -/
def tay (A : Matrix ι ι R) : Matrix ι ι R :=
  (1 + (1 / 4 : R) • A + (1 / 32 : R) • (A * A)) * (1 + (1 / 4 : R) • A + (1 / 32 : R) • (A * A)) *
    ((1 + (1 / 4 : R) • A + (1 / 32 : R) • (A * A)) * (1 + (1 / 4 : R) • A + (1 / 32 : R) • (A * A)))

theorem lmat_taylor [CharZero R] (hd : d = 1 ∨ d = 2 ∨ d = 4) (X : HMat d n R) :
    lmat (MatrixExp.exponentialMap X) = tay (lmat X) := by
  rw [MatrixExp.taylor_eq]
  simp only [lmat_multiply hd, lmat_add, lmat_scalar, lmat_identity (dim_of_assoc hd), tay]

theorem tay_intertwine {A B V : Matrix ι ι R} (h : A * V = V * B) : tay A * V = V * tay B := by
  have h1 : (1 + (1 / 4 : R) • A + (1 / 32 : R) • (A * A)) * V =
      V * (1 + (1 / 4 : R) • B + (1 / 32 : R) • (B * B)) := by
    simp only [Matrix.add_mul, Matrix.mul_add, Matrix.smul_mul, Matrix.mul_smul, Matrix.one_mul,
      Matrix.mul_one, Matrix.mul_assoc, h]
    simp only [← Matrix.mul_assoc, h]
  unfold tay
  generalize (1 + (1 / 4 : R) • A + (1 / 32 : R) • (A * A)) = y at h1 ⊢
  generalize (1 + (1 / 4 : R) • B + (1 / 32 : R) • (B * B)) = z at h1 ⊢
  simp only [Matrix.mul_assoc, h1]
  simp only [← Matrix.mul_assoc, h1]

theorem tay_diagonal (l : ι → R) :
    tay (diagonal l) = diagonal fun i => (1 + l i / 4 + l i ^ 2 / 32) ^ 4 := by
  have : (1 + (1 / 4 : R) • diagonal l + (1 / 32 : R) • (diagonal l * diagonal l)) =
      diagonal fun i => 1 + l i / 4 + l i ^ 2 / 32 := by
    ext i j
    by_cases h : i = j
    · subst h
      simp only [diagonal_mul_diagonal, Matrix.add_apply, Matrix.one_apply_eq, Matrix.smul_apply,
        diagonal_apply_eq, smul_eq_mul]
      ring
    · simp [h]
  unfold tay
  rw [this]
  simp only [diagonal_mul_diagonal]
  congr 1
  funext i
  ring

end Tay

theorem tay_pos (x : ℝ) : 0 < (1 + x / 4 + x ^ 2 / 32) ^ 4 := by
  have : 0 < 1 + x / 4 + x ^ 2 / 32 := by nlinarith [sq_nonneg (x + 4)]
  positivity

section Step

variable {R : Type} [Field R]

theorem lmat_addDiagonal [DecidableEq R] (hd : Dim d) (X : HMat d n R) (e : R) :
    lmat (MatrixExp.addDiagonal X e) = lmat X + e • 1 := by
  have : MatrixExp.addDiagonal X e = Hyper.add X (scalarMultiply (identity d) e) := by
    funext c
    simp only [MatrixExp.addDiagonal, Hyper.add, Hyper.scalar_apply, identity]
    split_ifs <;> simp
  rw [this, lmat_add, lmat_scalar, lmat_identity hd]

theorem lmat_takeStep [DecidableEq R] [CharZero R] (hd : d = 1 ∨ d = 2 ∨ d = 4) (s e : R)
    (w : Ws d n R) : lmat (takeStep s e w).W =
      (1 / 2 : R) • (tay (s • (lmat w.WS + e • 1)) * lmat w.W +
        (tay (s • (lmat w.WS + e • 1)) * lmat w.W)ᵀ) := by
  have hD := dim_of_assoc hd
  unfold takeStep
  simp only [lmat_scalar, lmat_add, lmat_conj hD, lmat_multiply hd, lmat_taylor hd]
  by_cases h : s = 1
  · simp [h, lmat_addDiagonal hD]
  · simp [h, lmat_scalar, lmat_addDiagonal hD]

end Step

/-- The updated scaling point in the common basis. -/
theorem takeStep_conj (hd : d = 1 ∨ d = 2 ∨ d = 4) {w : Ws d n ℝ} {S : HMat d n ℝ}
    (hWS : w.WS = multiply w.W S) {V : Matrix (Fin d × Fin n) (Fin d × Fin n) ℝ}
    {l : Fin d × Fin n → ℝ} (hVW : lmat w.W = V * Vᵀ)
    (h : lmat w.W * lmat S * V = V * diagonal l) (s e : ℝ) :
    lmat (takeStep s e w).W =
      V * (diagonal fun i => (1 + s * (l i + e) / 4 + (s * (l i + e)) ^ 2 / 32) ^ 4) * Vᵀ := by
  have hc := Lmi.step_conj h s e
  have ht := tay_intertwine hc
  rw [tay_diagonal] at ht
  have h1 : tay (s • (lmat w.WS + e • 1)) * lmat w.W =
      V * (diagonal fun i => (1 + s * (l i + e) / 4 + (s * (l i + e)) ^ 2 / 32) ^ 4) * Vᵀ := by
    rw [hWS, lmat_multiply hd, ← ht, Matrix.mul_assoc, ← hVW]
  rw [lmat_takeStep hd, h1]
  have h2 : ∀ D : Fin d × Fin n → ℝ, (V * diagonal D * Vᵀ)ᵀ = V * diagonal D * Vᵀ := by
    intro D
    simp [transpose_mul, Matrix.mul_assoc]
  rw [h2, ← two_smul ℝ, smul_smul]
  norm_num

section Lanczos

variable {R : Type} [Field R] [LinearOrder R]

/-- The columns as real vectors. -/
def fl (V : Pair d n R) : Lanczos.Pair (Fin d × Fin n) R := ⟨flat V.c0, flat V.c1⟩

theorem inner_fl [NeZero d] (hd : Dim d) (V U : Pair d n R) :
    inner V U = Lanczos.inner (fl V) (fl U) := by
  have : inner V U = retr (multiply (conjTranspose V.c0) U.c1) := by
    unfold inner retr
    rw [sum_eq_single (0 : Fin d)]
    · simp [Matrix.trace]
    · intro i _ hi
      rw [if_neg fun e => hi (Fin.ext (by simpa using e))]
    · simp
  rw [this, ← traceInner_retr hd, traceInner_flat]
  rfl

theorem fl_apply (hd : Dim d) (WS : HMat d n R) (V : Pair d n R) :
    fl (apply WS V) = Lanczos.apply (lmat WS) (fl V) := by
  simp only [fl, apply, Lanczos.apply, flat_multiply, lmat_conj hd]

theorem fl_scale (V : Pair d n R) (b : R) : fl (scale V (1 / b)) = Lanczos.divBy (fl V) b := by
  unfold fl scale Lanczos.divBy
  simp only [flat_scalar]
  congr 1 <;> · funext i; simp [div_eq_inv_mul]

theorem fl_sub (U V : Pair d n R) (a : R) :
    fl (addPair U (scale V (-a))) = Lanczos.subSmul (fl U) a (fl V) := by
  unfold fl scale addPair Lanczos.subSmul
  simp only [flat_scalar, flat_add]
  congr 1 <;> rw [neg_smul, sub_eq_add_neg]

theorem loop_run [NeZero d] (hd : Dim d) {sqrt : R → R} {WS : HMat d n R} {sc : R} :
    ∀ (k : Nat) (V U : Pair d n R) (l : List (R × R)), loop sqrt WS sc k V U = some l →
      Lanczos.Run sqrt (lmat WS) (fl V) (fl U) l := by
  intro k
  induction k with
  | zero =>
    intro V U l h
    obtain rfl := Option.some.inj h
    exact Lanczos.Run.stop _ _
  | succ k ih =>
    intro V U l h
    rw [loop] at h
    split_ifs at h with h1 h2
    · obtain rfl := Option.some.inj h
      exact Lanczos.Run.stop _ _
    · obtain ⟨l', hl', rfl⟩ := Option.map_eq_some_iff.1 h
      have := ih _ _ _ hl'
      rw [fl_sub, fl_sub, fl_apply hd, fl_scale] at this
      simp only [inner_fl hd, fl_apply hd, fl_scale] at this ⊢
      exact Lanczos.Run.step _ _ _ (by rw [← inner_fl hd]; exact not_le.1 h2) this

theorem loop_some [NeZero d] (sqrt : R → R) (WS : HMat d n R) {sc : R} [IsStrictOrderedRing R]
    (hs : 0 < sc) : ∀ (k : Nat) (V U : Pair d n R), ∃ l, loop sqrt WS sc k V U = some l := by
  intro k
  induction k with
  | zero => exact fun V U => ⟨_, rfl⟩
  | succ k ih =>
    intro V U
    rw [loop]
    split_ifs with h1 h2
    · exact ⟨_, rfl⟩
    · exact absurd (not_lt.1 h1) (not_le.2 (lt_of_le_of_lt h2 (by positivity)))
    · obtain ⟨l, hl⟩ := ih (scale U (1 / sqrt (inner U U)))
        (addPair (addPair (apply WS (scale U (1 / sqrt (inner U U))))
          (scale (scale U (1 / sqrt (inner U U))) (-inner (scale U (1 / sqrt (inner U U)))
            (apply WS (scale U (1 / sqrt (inner U U))))))) (scale V (-sqrt (inner U U))))
      simp only [hl, Option.map_some]
      exact ⟨_, rfl⟩

theorem lanczos_result [NeZero d] (hd : Dim d) {sqrt : R → R} {WS W : HMat d n R} {r : Col d n R}
    {k : Nat} {q : List R × List R} (h : lanczos sqrt WS W r k = some q) :
    Lanczos.Result sqrt (lmat WS) (lmat W) (flat r) q := by
  unfold lanczos at h
  simp only at h
  split_ifs at h with h0
  obtain ⟨l, hl, rfl⟩ := Option.map_eq_some_iff.1 h
  have := loop_run hd _ _ _ _ hl
  have e : fl (⟨multiply W r, r⟩ : Pair d n R) = ⟨lmat W *ᵥ flat r, flat r⟩ := by
    simp only [fl, flat_multiply]
  rw [fl_sub, fl_apply hd, fl_scale] at this
  simp only [inner_fl hd, fl_apply hd, fl_scale, e] at this ⊢
  exact ⟨by rw [← e, ← inner_fl hd]; exact not_le.1 h0, l, this, rfl⟩

end Lanczos

section Slack

variable {R : Type} [Field R]

theorem foldl_slack (y : Nat → R) : ∀ (A : List (HMat d n R)) (k : Nat) (S : HMat d n R) (c : Fin d)
    (r s : Fin n), (A.zipIdx k).foldl (fun S q => Hyper.add S (scalarMultiply q.1 (y q.2))) S c r s =
      S c r s + ∑ i ∈ range A.length, y (k + i) * A.getD i (fun _ => 0) c r s := by
  intro A
  induction A with
  | nil => simp
  | cons M A ih =>
    intro k S c r s
    rw [List.zipIdx_cons, List.foldl_cons, ih, List.length_cons, sum_range_succ']
    have e0 : (M :: A).getD 0 (fun _ => 0) = M := rfl
    have e1 : ∀ i, (M :: A).getD (i + 1) (fun _ => 0) = A.getD i (fun _ => 0) := fun i => rfl
    have e2 : ∀ i, k + 1 + i = k + (i + 1) := fun i => by omega
    simp only [Hyper.add, Matrix.add_apply, scalarMultiply, Nat.add_zero, e0, e1, e2]
    ring

theorem negativeSlack_eq {o : Con d n R} {C : HMat d n R} (hC : o.affine = some C) (k : R) {ny : Nat}
    (hy : o.mats.length ≤ ny) (y : Nat → R) :
    negativeSlack o k ny y = .ok (scalarMultiply (Spec.slack o.mats C k y) (-1)) := by
  unfold negativeSlack
  rw [hC]
  simp only
  rw [if_neg (not_lt.2 hy)]
  congr 1
  funext c
  ext r s
  rw [foldl_slack]
  simp only [Spec.slack, scalarMultiply, Nat.zero_add]
  ring

theorem negativeSlack_inv {o : Con d n R} {k : R} {ny : Nat} {y : Nat → R} {S : HMat d n R}
    (h : negativeSlack o k ny y = .ok S) :
    ∃ C, o.affine = some C ∧ o.mats.length ≤ ny ∧ S = scalarMultiply (Spec.slack o.mats C k y) (-1) := by
  cases hC : o.affine with
  | none => simp [negativeSlack, hC] at h
  | some C =>
    by_cases hy : ny < o.mats.length
    · simp [negativeSlack, hC, hy] at h
    · rw [negativeSlack_eq hC k (not_lt.1 hy)] at h
      exact ⟨C, rfl, not_lt.1 hy, (Outcome.ok.inj h).symm⟩

theorem hermitian_slack {o : Con d n R} {C : HMat d n R} (hC : o.affine = some C)
    (ho : Spec.HermitianData o) (k : R) (y : Nat → R) :
    Hyper.Spec.Hermitian (Spec.slack o.mats C k y) := by
  intro c r s
  have h1 := ho.2 C (by rw [hC]; rfl) c r s
  have h2 : ∀ i ∈ range o.mats.length, y i * o.mats.getD i (fun _ => 0) c r s =
      if c.1 = 0 then y i * o.mats.getD i (fun _ => 0) c s r
      else -(y i * o.mats.getD i (fun _ => 0) c s r) := by
    intro i hi
    have hm : o.mats.getD i (fun _ => 0) ∈ o.mats := by
      rw [List.getD_eq_getElem?_getD, List.getElem?_eq_getElem (mem_range.1 hi), Option.getD_some]
      exact List.getElem_mem _
    have := ho.1 _ hm c r s
    rw [this]
    split_ifs <;> ring
  simp only [Spec.slack]
  rw [h1, sum_congr rfl h2]
  split_ifs
  · rfl
  · rw [sum_neg_distrib]
    ring

theorem hermitian_scalar {X : HMat d n R} (h : Hyper.Spec.Hermitian X) (a : R) :
    Hyper.Spec.Hermitian (scalarMultiply X a) := by
  rw [hermitian_iff] at h ⊢
  rw [conj_scalar, h]

end Slack

/-- What is known when a step has been prepared. -/
theorem prepareStep_inv {R : Type} [Field R] [LinearOrder R] [NeZero d] {sqrt : R → R}
    {tri : List R → List R → List R} {r : Col d n R} {o : Con d n R} {c e : R} {ny : Nat} {y : Nat → R}
    {w w' : Ws d n R} {b : Option R} {q : R}
    (h : prepareStep sqrt tri r o c e ny y w = .ok (w', b, q)) :
    ∃ C, o.affine = some C ∧ o.mats.length ≤ ny ∧ w'.W = w.W ∧
      w'.WS = multiply w.W (scalarMultiply (Spec.slack o.mats C c y) (-1)) ∧
      b = (extremes tri (lanczos sqrt w'.WS w.W r (n / 2 + 1))).map (fun q =>
        if |e + q.1| < |e + q.2| then |e + q.2| else |e + q.1|) ∧
      q = (multiply w'.WS w'.WS 0).trace + 2 * (w'.WS 0).trace + n := by
  unfold prepareStep at h
  cases hs : negativeSlack o c ny y with
  | throws => simp [hs] at h
  | ub => simp [hs] at h
  | diverges => simp [hs] at h
  | ok S =>
    obtain ⟨C, hC, hy, rfl⟩ := negativeSlack_inv hs
    simp only [hs, Outcome.bind_ok, Outcome.ok.injEq, Prod.mk.injEq] at h
    obtain ⟨rfl, rfl, rfl⟩ := h
    exact ⟨C, hC, hy, rfl, rfl, rfl, rfl⟩

theorem scalar_scalar' {R : Type} [Field R] (X : Col d n R) (s t : R) :
    scalarMultiply (scalarMultiply X s) t = scalarMultiply X (s * t) := by
  funext c r q
  simp [scalarMultiply, mul_assoc]

theorem extremes_some {R : Type} [LinearOrder R] {tri : List R → List R → List R}
    {l : Option (List R × List R)} {q : R × R} (h : extremes tri l = some q) :
    ∃ l', l = some l' ∧ q.1 ∈ tri l'.1 l'.2 ∧ q.2 ∈ tri l'.1 l'.2 ∧ q.1 ≤ q.2 := by
  cases l with
  | none => simp [extremes] at h
  | some l =>
    simp only [extremes, Option.bind_eq_bind, Option.bind_some, Option.bind_eq_some_iff,
      Option.some.injEq] at h
    obtain ⟨a, ha, b, hb, rfl⟩ := h
    exact ⟨l, rfl, List.min?_mem ha, List.max?_mem hb,
      (List.min?_eq_some_iff.1 ha).2 _ (List.max?_mem hb)⟩

section Octonions

variable {R : Type} [Field R] [CharZero R]

theorem jordan_identity (x : HMat 8 n R) : jordan (identity 8) x = x := by
  have hD : Dim 8 := .inr (.inr (.inr rfl))
  unfold jordan
  rw [one_multiply hD, Hyper.multiply_one hD]
  funext c
  ext r s
  simp only [scalarMultiply, Hyper.add, Matrix.add_apply]
  ring

theorem quadRep_identity (x : HMat 8 n R) : quadRep (identity 8) x = x := by
  unfold quadRep
  simp only [jordan_identity]
  funext c
  ext r s
  simp only [scalarMultiply, Hyper.add, Matrix.add_apply]
  ring

theorem quadRep_scalar_identity (t : R) :
    quadRep (scalarMultiply (identity 8 : HMat 8 n R) t) (identity 8) =
      scalarMultiply (identity 8) (t * t) := by
  have hD : Dim 8 := .inr (.inr (.inr rfl))
  have hj : ∀ a b : R, jordan (scalarMultiply (identity 8 : HMat 8 n R) a)
      (scalarMultiply (identity 8) b) = scalarMultiply (identity 8) (a * b) := by
    intro a b
    unfold jordan
    simp only [scalar_multiply, multiply_scalar, one_multiply hD]
    funext c
    ext r s
    simp only [scalarMultiply, Hyper.add, Matrix.add_apply]
    ring
  have h1 : (identity 8 : HMat 8 n R) = scalarMultiply (identity 8) 1 := by
    funext c
    ext r s
    simp [scalarMultiply]
  unfold quadRep
  rw [h1]
  simp only [scalar_scalar, hj]
  funext c
  ext r s
  simp only [scalarMultiply, Hyper.add, Matrix.add_apply]
  ring

/-- The update of octonions at the identity. -/
theorem geodesicScaled_identity (t : R) :
    MatrixExp.geodesicScaled (identity 8 : HMat 8 n R) (scalarMultiply (identity 8) t) =
      scalarMultiply (identity 8) ((3 / 2 + t / 2) ^ 2) := by
  unfold MatrixExp.geodesicScaled makeHermitian
  simp only [quadRep_identity, quadRep_scalar_identity, conj_add, conj_scalar, conj_identity]
  funext c
  ext r s
  simp only [scalarMultiply, Hyper.add, Matrix.add_apply]
  ring

end Octonions

end Verif.HermLmi
