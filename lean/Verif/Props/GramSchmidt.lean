import Mathlib.Analysis.SpecialFunctions.Pow.Real
import Verif.Lemmas.GramSchmidt

/-!
# C82: orthogonalization of columns

Over the reals, the complex numbers and the quaternions `Orthogonalize` returns the Gram-Schmidt basis of
the columns exactly if the columns are independent; otherwise the result has NaN entries.  For octonions
it throws.
-/

namespace Verif.Ortho

open Matrix Hyper HermLmi Spec

variable {R : Type} [Field R] [LinearOrder R] [IsStrictOrderedRing R] {d n m : Nat} {sqrt : R → R}

theorem run_cases (hd : d = 1 ∨ d = 2 ∨ d = 4) (hsq : ∀ x, 0 ≤ x → SolveLoop.Spec.SqrtAt sqrt x)
    (A : Hyp d (Fin n) (Fin m) R) :
    (∃ Q, orthogonalize sqrt A = .ok (some Q) ∧ Inv A Q m) ∨
      (orthogonalize sqrt A = .ok none ∧ ¬ Independent A) := by
  have h8 : ¬ 8 ≤ d := by omega
  unfold orthogonalize
  rw [if_neg h8]
  rcases inv_run hd hsq (List.finRange m) [] A rfl (inv_start A) with ⟨Q, h, hI⟩ | ⟨h, i, Q, hI, h0⟩
  · exact .inl ⟨Q, by rw [h], hI⟩
  · exact .inr ⟨by rw [h], inv_dependent hd hI h0⟩

/-- The result has orthonormal columns, and each is a combination of the columns up to the same place
with a positive last coefficient. -/
theorem C82_gramSchmidt (hd : d = 1 ∨ d = 2 ∨ d = 4)
    (hsq : ∀ x, 0 ≤ x → SolveLoop.Spec.SqrtAt sqrt x) {A Q : Hyp d (Fin n) (Fin m) R}
    (h : orthogonalize sqrt A = .ok (some Q)) : Orthonormal Q ∧ Triangular A Q := by
  rcases run_cases hd hsq A with ⟨Q', h1, hI⟩ | ⟨h1, -⟩
  · rw [h] at h1
    obtain rfl := Option.some.inj (Outcome.ok.inj h1)
    exact inv_spec hd hI
  · rw [h] at h1
    cases Outcome.ok.inj h1

/-- The result of a square matrix is unitary from both sides. -/
theorem C82_unitary (hd : d = 1 ∨ d = 2 ∨ d = 4) (hsq : ∀ x, 0 ≤ x → SolveLoop.Spec.SqrtAt sqrt x)
    {A Q : Hyp d (Fin n) (Fin n) R} (h : orthogonalize sqrt A = .ok (some Q)) :
    multiply (Hyper.conjTranspose Q) Q = identity d ∧ multiply Q (Hyper.conjTranspose Q) = identity d :=
  ⟨(C82_gramSchmidt hd hsq h).1, orthonormal_square hd (C82_gramSchmidt hd hsq h).1⟩

/-- The result is finite exactly if the columns are independent. -/
theorem C82_defined_iff (hd : d = 1 ∨ d = 2 ∨ d = 4)
    (hsq : ∀ x, 0 ≤ x → SolveLoop.Spec.SqrtAt sqrt x) (A : Hyp d (Fin n) (Fin m) R) :
    (∃ Q, orthogonalize sqrt A = .ok (some Q)) ↔ Independent A := by
  constructor
  · rintro ⟨Q, h⟩
    obtain ⟨h1, h2⟩ := C82_gramSchmidt hd hsq h
    exact independent_of_triangular hd h1 h2
  · intro hi
    rcases run_cases hd hsq A with ⟨Q, h, -⟩ | ⟨-, h⟩
    · exact ⟨Q, h⟩
    · exact absurd hi h

/-- A matrix with more columns than rows gives NaN. -/
theorem C82_wide (hd : d = 1 ∨ d = 2 ∨ d = 4) (hsq : ∀ x, 0 ≤ x → SolveLoop.Spec.SqrtAt sqrt x)
    (A : Hyp d (Fin n) (Fin m) R) (hnm : n < m) : orthogonalize sqrt A = .ok none := by
  rcases run_cases hd hsq A with ⟨Q, h, -⟩ | ⟨h, -⟩
  · exfalso
    have hi := (C82_defined_iff hd hsq A).1 ⟨Q, h⟩
    have hinj : Function.Injective (lmat A).mulVecLin := by
      rw [injective_iff_map_eq_zero]
      intro x hx
      obtain ⟨v, rfl⟩ := flat_surjective x
      rw [mulVecLin_apply, ← flat_multiply] at hx
      rw [hi v (flat_injective (hx.trans rfl))]
      rfl
    have := LinearMap.finrank_le_finrank_of_injective hinj
    simp at this
    have hd0 : 0 < d := by omega
    have := Nat.le_of_mul_le_mul_left this hd0
    omega
  · exact h

/-- The message of the exception names dimension 8 as valid. -/
theorem C82_octonions (A : Hyp 8 (Fin n) (Fin m) R) : orthogonalize sqrt A = .throws := by
  unfold orthogonalize
  rw [if_pos le_rfl]

/-- A complex matrix with columns `(1, 0)` and `(1 + i, 1)`. -/
def exA : Hyp 2 (Fin 2) (Fin 2) ℝ := fun c => if c.1 = 0 then !![1, 1; 0, 1] else !![0, 1; 0, 0]

theorem exA_independent : Independent exA := by
  intro v hv
  have h := fun c r => congrFun (congrFun (congrFun hv c) r) ()
  have h1 := h 0 0
  have h2 := h 0 1
  have h3 := h 1 0
  have h4 := h 1 1
  simp [multiply_apply, Fin.sum_univ_two, gam, index, sign, indexTable, signTable, exA,
    vecMul, dotProduct] at h1 h2 h3 h4
  funext c
  ext r u
  cases u
  fin_cases c <;> fin_cases r <;> simp <;> linarith

/-- The hypotheses hold for a complex matrix of order 2. -/
example : (∀ x : ℝ, 0 ≤ x → SolveLoop.Spec.SqrtAt Real.sqrt x) ∧
    ∃ Q, orthogonalize Real.sqrt exA = .ok (some Q) :=
  ⟨fun x hx => ⟨Real.sqrt_nonneg x, Real.mul_self_sqrt hx⟩,
    (C82_defined_iff (.inr (.inl rfl)) (fun x hx => ⟨Real.sqrt_nonneg x, Real.mul_self_sqrt hx⟩) exA).2
      exA_independent⟩

/-- A row of two quaternions. -/
example : (1 : Nat) < 2 ∧ orthogonalize Real.sqrt (fun _ _ j => j.1 : Hyp 4 (Fin 1) (Fin 2) ℝ) = .ok none :=
  ⟨by decide, C82_wide (.inr (.inr rfl))
    (fun x hx => ⟨Real.sqrt_nonneg x, Real.mul_self_sqrt hx⟩) _ (by decide)⟩

end Verif.Ortho
