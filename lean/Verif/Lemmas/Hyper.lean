import Mathlib.Algebra.Module.BigOperators
import Mathlib.Tactic.Ring
import Mathlib.Tactic.Abel
import Mathlib.Tactic.Linarith
import Verif.Lemmas.HyperTable

/-!
# Laws of hypercomplex matrices
-/

namespace Verif.Hyper

open Matrix Finset Spec

section Ring

variable {R : Type} [CommRing R] {ι κ l o : Type} [Fintype ι] [Fintype κ] [Fintype l] [Fintype o]
  {d : Nat}

theorem multiply_apply (X : Hyp d ι κ R) (Y : Hyp d κ l R) (c : Fin d) :
    multiply X Y c = ∑ i : Fin d, ∑ j : Fin d, (gam i j c : R) • (X i * Y j) := by
  unfold multiply gam
  refine sum_congr rfl fun i _ => sum_congr rfl fun j _ => ?_
  split_ifs <;> simp

theorem conj_apply (X : Hyp d ι κ R) (c : Fin d) :
    conjTranspose X c = (kap c : R) • (X c)ᵀ := by
  unfold conjTranspose kap
  split_ifs <;> simp

theorem scalar_apply (X : Hyp d ι κ R) (s : R) (c : Fin d) : scalarMultiply X s c = s • X c := by
  ext
  simp [scalarMultiply, mul_comm]

/-- A triple product, bracketed on the left. -/
theorem multiply_left (X : Hyp d ι κ R) (Y : Hyp d κ l R) (Z : Hyp d l o R) (c : Fin d) :
    multiply (multiply X Y) Z c = ∑ a : Fin d, ∑ b : Fin d, ∑ j : Fin d,
      ((∑ i : Fin d, gam a b i * gam i j c : Int) : R) • (X a * (Y b * Z j)) := by
  rw [multiply_apply]
  simp only [multiply_apply, Matrix.sum_mul, Matrix.smul_mul, smul_sum, smul_smul, Matrix.mul_assoc,
    Int.cast_sum, Int.cast_mul, sum_smul]
  have e : ∀ i : Fin d, (∑ j : Fin d, ∑ a : Fin d, ∑ b : Fin d,
      ((gam i j c : R) * (gam a b i : R)) • (X a * (Y b * Z j))) =
      ∑ a : Fin d, ∑ b : Fin d, ∑ j : Fin d,
        ((gam a b i : R) * (gam i j c : R)) • (X a * (Y b * Z j)) := by
    intro i
    rw [sum_comm]
    refine sum_congr rfl fun a _ => ?_
    rw [sum_comm]
    refine sum_congr rfl fun b _ => sum_congr rfl fun j _ => ?_
    rw [mul_comm]
  rw [sum_congr rfl fun i _ => e i, sum_comm]
  refine sum_congr rfl fun a _ => ?_
  rw [sum_comm]
  refine sum_congr rfl fun b _ => ?_
  rw [sum_comm]

/-- A triple product, bracketed on the right. -/
theorem multiply_right (X : Hyp d ι κ R) (Y : Hyp d κ l R) (Z : Hyp d l o R) (c : Fin d) :
    multiply X (multiply Y Z) c = ∑ a : Fin d, ∑ b : Fin d, ∑ j : Fin d,
      ((∑ i : Fin d, gam b j i * gam a i c : Int) : R) • (X a * (Y b * Z j)) := by
  rw [multiply_apply]
  simp only [multiply_apply, Matrix.mul_sum, Matrix.mul_smul, smul_sum, smul_smul,
    Int.cast_sum, Int.cast_mul, sum_smul]
  refine sum_congr rfl fun a _ => ?_
  rw [sum_comm]
  refine sum_congr rfl fun b _ => ?_
  rw [sum_comm]
  refine sum_congr rfl fun j _ => sum_congr rfl fun i _ => ?_
  rw [mul_comm]

theorem multiply_add (X : Hyp d ι κ R) (Y Z : Hyp d κ l R) :
    multiply X (add Y Z) = add (multiply X Y) (multiply X Z) := by
  funext c
  simp only [add, multiply_apply, Matrix.mul_add, smul_add, sum_add_distrib]

theorem add_multiply (X Y : Hyp d ι κ R) (Z : Hyp d κ l R) :
    multiply (add X Y) Z = add (multiply X Z) (multiply Y Z) := by
  funext c
  simp only [add, multiply_apply, Matrix.add_mul, smul_add, sum_add_distrib]

theorem scalar_multiply (X : Hyp d ι κ R) (Y : Hyp d κ l R) (s : R) :
    multiply (scalarMultiply X s) Y = scalarMultiply (multiply X Y) s := by
  funext c
  simp only [scalar_apply, multiply_apply, Matrix.smul_mul, smul_sum]
  refine sum_congr rfl fun i _ => sum_congr rfl fun j _ => ?_
  rw [smul_comm]

theorem multiply_scalar (X : Hyp d ι κ R) (Y : Hyp d κ l R) (s : R) :
    multiply X (scalarMultiply Y s) = scalarMultiply (multiply X Y) s := by
  funext c
  simp only [scalar_apply, multiply_apply, Matrix.mul_smul, smul_sum]
  refine sum_congr rfl fun i _ => sum_congr rfl fun j _ => ?_
  rw [smul_comm]

theorem multiply_assoc (hd : d = 1 ∨ d = 2 ∨ d = 4) (X : Hyp d ι κ R) (Y : Hyp d κ l R)
    (Z : Hyp d l o R) : multiply (multiply X Y) Z = multiply X (multiply Y Z) := by
  funext c
  simp only [multiply_left, multiply_right, assoc_table hd]

theorem one_multiply [DecidableEq ι] (hd : Dim d) (X : Hyp d ι κ R) :
    multiply (identity d) X = X := by
  funext c
  have h0 : 0 < d := by
    rcases hd with rfl | rfl | rfl | rfl <;> omega
  rw [multiply_apply, sum_eq_single ⟨0, h0⟩]
  · simp only [fun j => unit_left_table hd ⟨0, h0⟩ j c rfl]
    simp [identity]
  · intro i _ hi
    have : i.1 ≠ 0 := fun h => hi (Fin.ext h)
    simp [identity, this]
  · simp

theorem multiply_one [DecidableEq κ] (hd : Dim d) (X : Hyp d ι κ R) :
    multiply X (identity d) = X := by
  funext c
  have h0 : 0 < d := by
    rcases hd with rfl | rfl | rfl | rfl <;> omega
  rw [multiply_apply, sum_comm, sum_eq_single ⟨0, h0⟩]
  · simp only [fun j => unit_right_table hd j ⟨0, h0⟩ c rfl]
    simp [identity]
  · intro i _ hi
    have : i.1 ≠ 0 := fun h => hi (Fin.ext h)
    simp [identity, this]
  · simp

theorem kap_sq (i : Nat) : kap i * kap i = 1 := by
  unfold kap
  split_ifs <;> rfl

theorem conj_multiply (hd : Dim d) (X : Hyp d ι κ R) (Y : Hyp d κ l R) :
    conjTranspose (multiply X Y) = multiply (conjTranspose Y) (conjTranspose X) := by
  funext c
  simp only [conj_apply, multiply_apply, Matrix.transpose_sum, Matrix.transpose_smul,
    Matrix.transpose_mul, smul_sum, smul_smul, Matrix.smul_mul, Matrix.mul_smul]
  rw [sum_comm]
  refine sum_congr rfl fun j _ => sum_congr rfl fun i _ => ?_
  congr 1
  have := conj_table hd i j c
  rw [← Int.cast_mul, this]
  push_cast
  ring

theorem conj_conj (X : Hyp d ι κ R) : conjTranspose (conjTranspose X) = X := by
  funext c
  simp only [conj_apply, Matrix.transpose_smul, smul_smul, ← Int.cast_mul, kap_sq, Int.cast_one,
    one_smul, Matrix.transpose_transpose]

theorem conj_add (X Y : Hyp d ι κ R) :
    conjTranspose (add X Y) = add (conjTranspose X) (conjTranspose Y) := by
  funext c
  simp only [conj_apply, add, Matrix.transpose_add, smul_add]

theorem conj_scalar (X : Hyp d ι κ R) (s : R) :
    conjTranspose (scalarMultiply X s) = scalarMultiply (conjTranspose X) s := by
  funext c
  simp only [conj_apply, scalar_apply, Matrix.transpose_smul]
  rw [smul_comm]

theorem hermitian_iff (X : Hyp d ι ι R) : Spec.Hermitian X ↔ conjTranspose X = X := by
  unfold Spec.Hermitian conjTranspose
  constructor
  · intro h
    funext i
    ext r c
    rw [h i r c]
    split_ifs <;> rfl
  · intro h i r c
    have := congrFun (congrFun (congrFun h i) r) c
    rw [← this]
    split_ifs <;> simp [Matrix.transpose_apply]

/-- The trace inner product is that of the components. -/
theorem traceInner_eq (X Y : Hyp d ι κ R) :
    traceInner X Y = ∑ i : Fin d, ((X i)ᵀ * Y i).trace := by
  simp only [traceInner, Matrix.trace, Matrix.diag, Matrix.mul_apply, Matrix.transpose_apply]

/-- The real part of the trace. -/
def retr (X : Hyp d ι ι R) : R := ∑ i : Fin d, if i.1 = 0 then (X i).trace else 0

theorem retr_multiply (hd : Dim d) (X : Hyp d ι κ R) (Y : Hyp d κ ι R) :
    retr (multiply X Y) = ∑ i : Fin d, (kap i : R) * (X i * Y i).trace := by
  have h0 : 0 < d := by
    rcases hd with rfl | rfl | rfl | rfl <;> omega
  unfold retr
  rw [sum_eq_single ⟨0, h0⟩]
  · simp only [if_true, multiply_apply, Matrix.trace_sum, Matrix.trace_smul,
      fun i j => real_table hd i j ⟨0, h0⟩ rfl]
    refine sum_congr rfl fun i _ => ?_
    rw [sum_eq_single i]
    · simp
    · intro j _ hj
      simp [hj.symm]
    · simp
  · intro i _ hi
    have : i.1 ≠ 0 := fun h => hi (Fin.ext h)
    simp [this]
  · simp

theorem traceInner_retr (hd : Dim d) (X Y : Hyp d ι κ R) :
    traceInner X Y = retr (multiply (conjTranspose X) Y) := by
  rw [traceInner_eq, retr_multiply hd]
  refine sum_congr rfl fun i _ => ?_
  rw [conj_apply, Matrix.smul_mul, Matrix.trace_smul, smul_eq_mul, ← mul_assoc, ← Int.cast_mul, kap_sq,
    Int.cast_one, one_mul]

theorem retr_comm (hd : Dim d) (X : Hyp d ι κ R) (Y : Hyp d κ ι R) :
    retr (multiply X Y) = retr (multiply Y X) := by
  rw [retr_multiply hd, retr_multiply hd]
  refine sum_congr rfl fun i _ => ?_
  rw [Matrix.trace_mul_comm]

theorem retr_assoc (hd : Dim d) (X : Hyp d ι κ R) (Y : Hyp d κ l R) (Z : Hyp d l ι R) :
    retr (multiply (multiply X Y) Z) = retr (multiply X (multiply Y Z)) := by
  unfold retr
  refine sum_congr rfl fun c _ => ?_
  split_ifs with h
  · rw [multiply_left, multiply_right]
    simp only [fun a b j => real_assoc_table hd a b j c h]
  · rfl

theorem traceInner_comm (X Y : Hyp d ι κ R) : traceInner X Y = traceInner Y X := by
  simp only [traceInner, mul_comm]

theorem traceInner_add_left (X Y Z : Hyp d ι κ R) :
    traceInner (add X Y) Z = traceInner X Z + traceInner Y Z := by
  simp only [traceInner, add, Matrix.add_apply, add_mul, sum_add_distrib]

theorem traceInner_scalar_left (X Y : Hyp d ι κ R) (s : R) :
    traceInner (scalarMultiply X s) Y = s * traceInner X Y := by
  simp only [traceInner, scalarMultiply, mul_sum]
  refine sum_congr rfl fun i _ => sum_congr rfl fun j _ => sum_congr rfl fun k _ => ?_
  ring

/-- Left multiplication has the multiplication with the conjugate as adjoint. -/
theorem traceInner_multiply_left (hd : Dim d) (X : Hyp d ι κ R) (Y : Hyp d κ l R) (Z : Hyp d ι l R) :
    traceInner (multiply X Y) Z = traceInner Y (multiply (conjTranspose X) Z) := by
  rw [traceInner_retr hd, traceInner_retr hd, conj_multiply hd, retr_assoc hd]

/-- Right multiplication likewise. -/
theorem traceInner_multiply_right (hd : Dim d) (X : Hyp d ι κ R) (Y : Hyp d κ l R) (Z : Hyp d ι l R) :
    traceInner (multiply X Y) Z = traceInner X (multiply Z (conjTranspose Y)) := by
  rw [traceInner_retr hd, traceInner_retr hd, conj_multiply hd, retr_assoc hd, retr_comm hd,
    retr_assoc hd]

end Ring

section Field

variable {R : Type} [Field R] [CharZero R] {ι : Type} [Fintype ι] {d : Nat}

/-- The norm of a product of scalars. -/
theorem norm_multiply (hd : Dim d) (x y : Hyp d Unit Unit R) :
    squaredNorm (multiply x y) = squaredNorm x * squaredNorm y := by
  set u : Fin d → R := fun i => x i () () with hu
  set v : Fin d → R := fun i => y i () () with hv
  set g : Fin d → Fin d → Fin d → Fin d → R := fun i j k m =>
    ((∑ c : Fin d, gam i j c * gam k m c : Int) : R) with hg
  have hc : ∀ c, multiply x y c () () = ∑ i : Fin d, ∑ j : Fin d, (gam i j c : R) * (u i * v j) := by
    intro c
    rw [multiply_apply]
    simp [Matrix.sum_apply, Matrix.mul_apply, hu, hv]
  have hx : squaredNorm x = ∑ i, u i * u i := by simp [squaredNorm, hu]
  have hy : squaredNorm y = ∑ i, v i * v i := by simp [squaredNorm, hv]
  have h1 : squaredNorm (multiply x y) =
      ∑ i, ∑ j, ∑ k, ∑ m, g i j k m * (u i * v j * (u k * v m)) := by
    have : squaredNorm (multiply x y) = ∑ c : Fin d, ∑ i : Fin d, ∑ j : Fin d, ∑ k : Fin d, ∑ m : Fin d,
        ((gam i j c : R) * (gam k m c : R)) * (u i * v j * (u k * v m)) := by
      simp only [squaredNorm, univ_unique, sum_singleton, PUnit.default_eq_unit, hc]
      refine sum_congr rfl fun c _ => ?_
      simp only [sum_mul, mul_sum]
      refine sum_congr rfl fun i _ => sum_congr rfl fun j _ => sum_congr rfl fun k _ =>
        sum_congr rfl fun m _ => ?_
      ring
    rw [this, sum_comm]
    refine sum_congr rfl fun i _ => ?_
    rw [sum_comm]
    refine sum_congr rfl fun j _ => ?_
    rw [sum_comm]
    refine sum_congr rfl fun k _ => ?_
    rw [sum_comm]
    refine sum_congr rfl fun m _ => ?_
    rw [hg]
    push_cast
    rw [sum_mul]
  have h2 : squaredNorm (multiply x y) =
      ∑ i, ∑ j, ∑ k, ∑ m, g k j i m * (u i * v j * (u k * v m)) := by
    rw [h1]
    have e : ∀ f : Fin d → Fin d → Fin d → R, ∑ i, ∑ j, ∑ k, f i j k = ∑ i, ∑ j, ∑ k, f k j i := by
      intro f
      rw [sum_comm]
      have : ∀ j, ∑ i, ∑ k, f i j k = ∑ i, ∑ k, f k j i := fun j => sum_comm
      simp only [this]
      rw [sum_comm]
    rw [e]
    refine sum_congr rfl fun i _ => sum_congr rfl fun j _ => sum_congr rfl fun k _ =>
      sum_congr rfl fun m _ => ?_
    ring
  have h3 : 2 * squaredNorm (multiply x y) = 2 * (squaredNorm x * squaredNorm y) := by
    rw [two_mul]
    nth_rw 1 [h1]
    rw [h2]
    simp only [← sum_add_distrib, ← add_mul]
    have hs : ∀ i j k m, g i j k m + g k j i m = if i = k ∧ j = m then 2 else 0 := by
      intro i j k m
      have := norm_table hd i j k m
      rw [hg]
      simp only [← Int.cast_add, this]
      split_ifs <;> simp
    simp only [hs]
    rw [hx, hy, sum_mul, mul_sum]
    refine sum_congr rfl fun i _ => ?_
    rw [mul_sum, mul_sum]
    refine sum_congr rfl fun j _ => ?_
    rw [sum_eq_single i, sum_eq_single j]
    · simp
      ring
    · intro m _ hm
      simp [hm.symm]
    · simp
    · intro k _ hk
      simp [hk.symm]
    · simp
  exact mul_left_cancel₀ two_ne_zero h3

omit [CharZero R] in
theorem jordan_comm (x y : Hyp d ι ι R) : jordan x y = jordan y x := by
  unfold jordan
  congr 1
  funext c
  exact add_comm _ _

omit [CharZero R] in
theorem conj_jordan (hd : Dim d) {x y : Hyp d ι ι R} (hx : conjTranspose x = x)
    (hy : conjTranspose y = y) : conjTranspose (jordan x y) = jordan x y := by
  unfold jordan
  rw [conj_scalar, conj_add, conj_multiply hd, conj_multiply hd, hx, hy]
  congr 1
  funext c
  exact add_comm _ _

omit [CharZero R] in
theorem conj_quadRep (hd : Dim d) {x y : Hyp d ι ι R} (hx : conjTranspose x = x)
    (hy : conjTranspose y = y) : conjTranspose (quadRep x y) = quadRep x y := by
  unfold quadRep
  rw [conj_add, conj_scalar, conj_scalar, conj_jordan hd hx (conj_jordan hd hx hy),
    conj_jordan hd (conj_jordan hd hx hx) hy]

omit [CharZero R] in
theorem traceInner_jordan (hd : Dim d) {x : Hyp d ι ι R} (hx : conjTranspose x = x)
    (y z : Hyp d ι ι R) : traceInner (jordan x y) z = traceInner y (jordan x z) := by
  unfold jordan
  rw [traceInner_scalar_left, traceInner_add_left, traceInner_multiply_left hd,
    traceInner_multiply_right hd, hx, traceInner_comm y (scalarMultiply _ _), traceInner_scalar_left,
    traceInner_add_left, traceInner_comm y, traceInner_comm y]

omit [CharZero R] in
theorem traceInner_quadRep (hd : Dim d) {x : Hyp d ι ι R} (hx : conjTranspose x = x)
    (y z : Hyp d ι ι R) : traceInner (quadRep x y) z = traceInner y (quadRep x z) := by
  unfold quadRep
  rw [traceInner_add_left, traceInner_scalar_left, traceInner_scalar_left, traceInner_jordan hd hx,
    traceInner_jordan hd hx, traceInner_jordan hd (conj_jordan hd hx hx),
    traceInner_comm y (add _ _), traceInner_add_left, traceInner_scalar_left, traceInner_scalar_left,
    traceInner_comm y, traceInner_comm y]

/-- In an associative algebra the quadratic representation is the product on both sides. -/
theorem quadRep_assoc (hd : d = 1 ∨ d = 2 ∨ d = 4) (x y : Hyp d ι ι R) :
    quadRep x y = multiply (multiply x y) x := by
  unfold quadRep jordan
  simp only [add_multiply, multiply_add, scalar_multiply, multiply_scalar]
  simp only [multiply_assoc hd]
  funext c
  ext r s
  simp only [add, scalarMultiply, Matrix.add_apply]
  ring

theorem dim_of_assoc (hd : d = 1 ∨ d = 2 ∨ d = 4) : Dim d := by
  rcases hd with h | h | h
  · exact .inl h
  · exact .inr (.inl h)
  · exact .inr (.inr (.inl h))

theorem conj_identity [DecidableEq ι] : conjTranspose (identity d : Hyp d ι ι R) = identity d := by
  funext c
  unfold conjTranspose identity
  split_ifs <;> simp

theorem multiply_zero (X : Hyp d ι ι R) : multiply X (zero d) = (zero d : Hyp d ι ι R) := by
  funext c
  simp [multiply_apply, zero]

theorem scalar_scalar (X : Hyp d ι ι R) (s t : R) :
    scalarMultiply (scalarMultiply X s) t = scalarMultiply X (s * t) := by
  funext c r q
  simp [scalarMultiply, mul_assoc]

end Field

end Verif.Hyper
