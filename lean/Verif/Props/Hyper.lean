import Mathlib.Algebra.Field.Rat
import Verif.Lemmas.Hyper

/-!
# Properties of hypercomplex matrices (C42)
-/

namespace Verif.Hyper

open Matrix Finset Spec

section Ring

variable {R : Type} [CommRing R] {ι κ l o : Type} [Fintype ι] [Fintype κ] [Fintype l] [Fintype o]
  {d : Nat}

/-- Real, complex and quaternionic matrix multiplication is associative. -/
theorem C42_assoc (hd : d = 1 ∨ d = 2 ∨ d = 4) (X : Hyp d ι κ R) (Y : Hyp d κ l R)
    (Z : Hyp d l o R) : multiply (multiply X Y) Z = multiply X (multiply Y Z) :=
  multiply_assoc hd X Y Z

/-- Octonionic multiplication is not: `(e₁ e₂) e₄ = -e₇`, `e₁ (e₂ e₄) = e₇`. -/
example :
    let e : Nat → Hyp 8 Unit Unit ℚ := fun k i => if i.1 = k then 1 else 0
    multiply (multiply (e 1) (e 2)) (e 4) 7 () () = -multiply (e 1) (multiply (e 2) (e 4)) 7 () () ∧
      multiply (e 1) (multiply (e 2) (e 4)) 7 () () ≠ 0 := by
  decide +kernel

/-- It is distributive and homogeneous on both sides, in all four algebras. -/
theorem C42_bilinear (X X' : Hyp d ι κ R) (Y Y' : Hyp d κ l R) (s : R) :
    multiply X (add Y Y') = add (multiply X Y) (multiply X Y') ∧
      multiply (add X X') Y = add (multiply X Y) (multiply X' Y) ∧
      multiply (scalarMultiply X s) Y = scalarMultiply (multiply X Y) s ∧
      multiply X (scalarMultiply Y s) = scalarMultiply (multiply X Y) s :=
  ⟨multiply_add X Y Y', add_multiply X X' Y, scalar_multiply X Y s, multiply_scalar X Y s⟩

/-- The identity is a unit on both sides, in all four algebras. -/
theorem C42_unit [DecidableEq ι] [DecidableEq κ] (hd : Dim d) (X : Hyp d ι κ R) :
    multiply (identity d) X = X ∧ multiply X (identity d) = X :=
  ⟨one_multiply hd X, multiply_one hd X⟩

/-- Conjugate transposition reverses products and is an involution, in all four algebras. -/
theorem C42_conj (hd : Dim d) (X : Hyp d ι κ R) (Y : Hyp d κ l R) :
    conjTranspose (multiply X Y) = multiply (conjTranspose Y) (conjTranspose X) ∧
      conjTranspose (conjTranspose X) = X :=
  ⟨conj_multiply hd X Y, conj_conj X⟩

/-- The trace inner product is symmetric and the real part of the trace of `X* Y`. -/
theorem C42_trace (hd : Dim d) (X Y : Hyp d ι κ R) :
    traceInner X Y = traceInner Y X ∧
      ∀ z : Fin d, z.1 = 0 → traceInner X Y = (multiply (conjTranspose X) Y z).trace := by
  refine ⟨traceInner_comm X Y, fun z hz => ?_⟩
  rw [traceInner_retr hd, retr, sum_eq_single z]
  · rw [if_pos hz]
  · intro i _ hi
    rw [if_neg]
    intro h
    exact hi (Fin.ext (h.trans hz.symm))
  · simp

/-- Multiplications on either side have the multiplications with the conjugate as adjoints, although
octonionic products are not associative. -/
theorem C42_adjoint (hd : Dim d) (X : Hyp d ι κ R) (Y : Hyp d κ l R) (Z : Hyp d ι l R) :
    traceInner (multiply X Y) Z = traceInner Y (multiply (conjTranspose X) Z) ∧
      traceInner (multiply X Y) Z = traceInner X (multiply Z (conjTranspose Y)) :=
  ⟨traceInner_multiply_left hd X Y Z, traceInner_multiply_right hd X Y Z⟩

/-- Octonions satisfy the alternative laws. -/
theorem C42_alternative (x y : Hyp 8 Unit Unit R) (h2 : IsUnit (2 : R)) :
    multiply (multiply x x) y = multiply x (multiply x y) ∧
      multiply (multiply y x) x = multiply y (multiply x x) := by
  have hm : ∀ a b : Matrix Unit Unit R, a * b = b * a := by
    intro a b
    ext
    simp [Matrix.mul_apply, mul_comm]
  have hl : ∀ a b c : Matrix Unit Unit R, a * (b * c) = b * (a * c) := by
    intro a b c
    rw [← Matrix.mul_assoc, hm a b, Matrix.mul_assoc]
  have h2' : ∀ a b : Matrix Unit Unit R, a + a = b + b → a = b := by
    intro a b h
    ext r s
    have := congrFun (congrFun h r) s
    simp only [Matrix.add_apply, ← two_mul] at this
    exact h2.mul_left_cancel this
  constructor
  · funext c
    refine h2' _ _ ?_
    rw [multiply_left, multiply_right]
    have e : ∀ f : Fin 8 → Fin 8 → Fin 8 → Int,
        ∑ a, ∑ b, ∑ j, (f a b j : R) • (x a * (x b * y j)) =
          ∑ a, ∑ b, ∑ j, (f b a j : R) • (x a * (x b * y j)) := by
      intro f
      rw [sum_comm]
      refine sum_congr rfl fun a _ => sum_congr rfl fun b _ => sum_congr rfl fun j _ => ?_
      rw [hl]
    nth_rw 2 [e fun a b j => ∑ i : Fin 8, gam a b i * gam i j c]
    nth_rw 2 [e fun a b j => ∑ i : Fin 8, gam b j i * gam a i c]
    simp only [← sum_add_distrib, ← add_smul, ← Int.cast_add]
    simp only [sum_add_distrib, alt_table]
  · funext c
    refine h2' _ _ ?_
    rw [multiply_left, multiply_right]
    have e : ∀ f : Fin 8 → Fin 8 → Fin 8 → Int,
        ∑ a, ∑ b, ∑ j, (f a b j : R) • (y a * (x b * x j)) =
          ∑ a, ∑ b, ∑ j, (f a j b : R) • (y a * (x b * x j)) := by
      intro f
      refine sum_congr rfl fun a _ => ?_
      rw [sum_comm]
      refine sum_congr rfl fun b _ => sum_congr rfl fun j _ => ?_
      rw [hm (x j)]
    nth_rw 2 [e fun a b j => ∑ i : Fin 8, gam a b i * gam i j c]
    nth_rw 2 [e fun a b j => ∑ i : Fin 8, gam b j i * gam a i c]
    simp only [← sum_add_distrib, ← add_smul, ← Int.cast_add]
    simp only [sum_add_distrib, alt_table_right]

example : IsUnit (2 : ℚ) := isUnit_iff_ne_zero.2 (by decide)

end Ring

section Field

variable {R : Type} [Field R] [CharZero R] {ι : Type} [Fintype ι] {d : Nat}

/-- The norm of scalars is multiplicative in all four algebras. -/
theorem C42_norm (hd : Dim d) (x y : Hyp d Unit Unit R) :
    squaredNorm (multiply x y) = squaredNorm x * squaredNorm y :=
  norm_multiply hd x y

/-- In the associative algebras the quadratic representation of `X` maps `Y` to `X Y X`. -/
theorem C42_quadRep (hd : d = 1 ∨ d = 2 ∨ d = 4) (X Y : Hyp d ι ι R) :
    quadRep X Y = multiply (multiply X Y) X :=
  quadRep_assoc hd X Y

omit [CharZero R] in
/-- The Jordan product is commutative; it and the quadratic representation keep matrices Hermitian,
and those of a Hermitian matrix are self-adjoint, in all four algebras. -/
theorem C42_jordan (hd : Dim d) (X Y : Hyp d ι ι R) (hX : Hermitian X) :
    jordan X Y = jordan Y X ∧
      (Hermitian Y → Hermitian (jordan X Y) ∧ Hermitian (quadRep X Y)) ∧
      ∀ Z, traceInner (jordan X Y) Z = traceInner Y (jordan X Z) ∧
        traceInner (quadRep X Y) Z = traceInner Y (quadRep X Z) := by
  rw [hermitian_iff] at hX
  refine ⟨jordan_comm X Y, fun hY => ?_, fun Z => ?_⟩
  · rw [hermitian_iff] at hY
    exact ⟨(hermitian_iff _).2 (conj_jordan hd hX hY), (hermitian_iff _).2 (conj_quadRep hd hX hY)⟩
  · exact ⟨traceInner_jordan hd hX Y Z, traceInner_quadRep hd hX Y Z⟩

/-- A complex Hermitian matrix that is not real. -/
example : Hermitian (fun i => if i = 0 then !![1, 2; 2, 3] else !![0, 5; -5, 0] :
    Hyp 2 (Fin 2) (Fin 2) ℚ) := by
  intro i r c
  fin_cases i <;> fin_cases r <;> fin_cases c <;> simp

end Field

section Mathlib

variable {ι κ l : Type} [Fintype ι] [Fintype κ] [Fintype l]

/-- For two components these are the complex matrices. -/
theorem C42_complex (X : Hyp 2 ι κ ℝ) (Y : Hyp 2 κ l ℝ) :
    toC (multiply X Y) = toC X * toC Y ∧ toC (conjTranspose X) = (toC X)ᴴ := by
  constructor
  · ext r c
    apply Complex.ext
    · simp [toC, multiply, index, sign, indexTable, signTable, Fin.sum_univ_two, Matrix.mul_apply,
        ← sub_eq_add_neg]
    · simp [toC, multiply, index, sign, indexTable, signTable, Fin.sum_univ_two, Matrix.mul_apply,
        sum_add_distrib, add_comm]
  · ext r c
    apply Complex.ext <;> simp [toC, conjTranspose]

/-- For four components these are the quaternionic matrices. -/
theorem C42_quaternion (X : Hyp 4 ι κ ℝ) (Y : Hyp 4 κ l ℝ) :
    toH (multiply X Y) = toH X * toH Y ∧ toH (conjTranspose X) = (toH X)ᴴ := by
  have hre : ∀ f : κ → Quaternion ℝ, (∑ x, f x).re = ∑ x, (f x).re := fun f =>
    map_sum (⟨⟨fun q => q.re, rfl⟩, fun _ _ => rfl⟩ : Quaternion ℝ →+ ℝ) f univ
  have hi : ∀ f : κ → Quaternion ℝ, (∑ x, f x).imI = ∑ x, (f x).imI := fun f =>
    map_sum (⟨⟨fun q => q.imI, rfl⟩, fun _ _ => rfl⟩ : Quaternion ℝ →+ ℝ) f univ
  have hj : ∀ f : κ → Quaternion ℝ, (∑ x, f x).imJ = ∑ x, (f x).imJ := fun f =>
    map_sum (⟨⟨fun q => q.imJ, rfl⟩, fun _ _ => rfl⟩ : Quaternion ℝ →+ ℝ) f univ
  have hk : ∀ f : κ → Quaternion ℝ, (∑ x, f x).imK = ∑ x, (f x).imK := fun f =>
    map_sum (⟨⟨fun q => q.imK, rfl⟩, fun _ _ => rfl⟩ : Quaternion ℝ →+ ℝ) f univ
  have h0 : ∀ {ι κ : Type} (Z : Hyp 4 ι κ ℝ) r c, (toH Z r c).re = Z 0 r c := fun _ _ _ => rfl
  have h1 : ∀ {ι κ : Type} (Z : Hyp 4 ι κ ℝ) r c, (toH Z r c).imI = Z 1 r c := fun _ _ _ => rfl
  have h2 : ∀ {ι κ : Type} (Z : Hyp 4 ι κ ℝ) r c, (toH Z r c).imJ = Z 2 r c := fun _ _ _ => rfl
  have h3 : ∀ {ι κ : Type} (Z : Hyp 4 ι κ ℝ) r c, (toH Z r c).imK = -Z 3 r c := fun _ _ _ => rfl
  constructor
  · ext r c
    · rw [Matrix.mul_apply, hre]
      simp only [Quaternion.re_mul, h0, h1, h2, h3, sum_sub_distrib]
      simp [multiply, index, sign, indexTable, signTable, Fin.sum_univ_four, Matrix.mul_apply]
      ring
    · rw [Matrix.mul_apply, hi]
      simp only [Quaternion.imI_mul, h0, h1, h2, h3, sum_sub_distrib, sum_add_distrib]
      simp [multiply, index, sign, indexTable, signTable, Fin.sum_univ_four, Matrix.mul_apply]
    · rw [Matrix.mul_apply, hj]
      simp only [Quaternion.imJ_mul, h0, h1, h2, h3, sum_sub_distrib, sum_add_distrib]
      simp [multiply, index, sign, indexTable, signTable, Fin.sum_univ_four, Matrix.mul_apply]
    · rw [Matrix.mul_apply, hk]
      simp only [Quaternion.imK_mul, h0, h1, h2, h3, sum_sub_distrib, sum_add_distrib]
      simp [multiply, index, sign, indexTable, signTable, Fin.sum_univ_four, Matrix.mul_apply]
      ring
  · ext r c <;> simp [h0, h1, h2, h3, conjTranspose]

end Mathlib

end Verif.Hyper
