import Mathlib.Tactic.FieldSimp
import Mathlib.Tactic.Ring
import Mathlib.Tactic.Linarith
import Mathlib.Tactic.LinearCombination
import Mathlib.Algebra.Order.Ring.Abs
import Verif.Spec.Spin

/-!
# The Jordan algebra of a quadratic cone
-/

namespace Verif.Spin

open Soc Spec

variable {R : Type} [Field R] [LinearOrder R] [IsStrictOrderedRing R]
variable {B : (Nat → R) → (Nat → R) → R}

theorem Spec.IsForm.add_right (hB : IsForm B) (x y z : Nat → R) :
    B z (fun i => x i + y i) = B z x + B z y := by
  rw [hB.symm, hB.add, hB.symm x, hB.symm y]

theorem Spec.IsForm.smul_right (hB : IsForm B) (a : R) (x z : Nat → R) :
    B z (fun i => a * x i) = a * B z x := by
  rw [hB.symm, hB.smul, hB.symm x]

theorem Spec.IsForm.zero_left (hB : IsForm B) (z : Nat → R) : B (fun _ => 0) z = 0 := by
  have := hB.smul 0 z z
  simpa using this

theorem Spec.IsForm.comb (hB : IsForm B) (a b : R) (x y z : Nat → R) :
    B (fun i => a * x i + b * y i) z = a * B x z + b * B y z := by
  rw [hB.add (fun i => a * x i) (fun i => b * y i), hB.smul, hB.smul]

theorem Spec.IsForm.comb_right (hB : IsForm B) (a b : R) (x y z : Nat → R) :
    B z (fun i => a * x i + b * y i) = a * B z x + b * B z y := by
  rw [hB.symm, hB.comb, hB.symm x, hB.symm y]

/-- The inequality of Cauchy and Schwarz. -/
theorem Spec.IsForm.cauchy (hB : IsForm B) (x y : Nat → R) : B x y ^ 2 ≤ B x x * B y y := by
  have key : ∀ s t : R, 0 ≤ s ^ 2 * B x x + 2 * s * t * B x y + t ^ 2 * B y y := by
    intro s t
    have := hB.nonneg (fun i => s * x i + t * y i)
    rw [hB.comb, hB.comb_right, hB.comb_right, hB.symm y x] at this
    nlinarith [this]
  rcases (hB.nonneg y).eq_or_lt with h0 | hpos
  · rw [← h0, mul_zero]
    by_contra hne
    have hne' : B x y ≠ 0 := by
      intro h
      rw [h] at hne
      simp at hne
    have := key 1 (-(B x x + 1) / (2 * B x y))
    rw [← h0] at this
    have e : 2 * 1 * (-(B x x + 1) / (2 * B x y)) * B x y = -(B x x + 1) := by
      field_simp
    rw [e] at this
    linarith
  · have := key (B y y) (-B x y)
    have h2 : 0 ≤ B y y * (B x x * B y y - B x y ^ 2) := by nlinarith [this]
    have := nonneg_of_mul_nonneg_right h2 hpos
    linarith

/-- A tail of norm zero is orthogonal to everything. -/
theorem Spec.IsForm.kernel (hB : IsForm B) {x : Nat → R} (h : B x x = 0) (z : Nat → R) : B x z = 0 := by
  have := hB.cauchy x z
  rw [h, zero_mul] at this
  exact pow_eq_zero_iff two_ne_zero |>.1 (le_antisymm this (sq_nonneg _))

/-- The quadratic representation in terms of the determinant. -/
theorem quad_eq (hB : IsForm B) (x y : El R) :
    quad B x y = ⟨2 * (x.h * y.h + B x.t y.t) * x.h - (x.h * x.h - B x.t x.t) * y.h,
      fun i => 2 * (x.h * y.h + B x.t y.t) * x.t i + (x.h * x.h - B x.t x.t) * y.t i⟩ := by
  unfold quad add smul mul
  simp only [hB.comb_right, hB.comb]
  congr 1
  · ring
  · funext i
    ring

theorem Spec.Same.refl (x : El R) : Same B x x := ⟨rfl, fun _ => rfl⟩

theorem Spec.Same.symm {x y : El R} (h : Same B x y) : Same B y x := ⟨h.1.symm, fun z => (h.2 z).symm⟩

theorem Spec.Same.trans {x y z : El R} (h : Same B x y) (h' : Same B y z) : Same B x z :=
  ⟨h.1.trans h'.1, fun v => (h.2 v).trans (h'.2 v)⟩

/-- The form on equal tails. -/
theorem Spec.Same.form (hB : IsForm B) {x y x' y' : El R} (h : Same B x y) (h' : Same B x' y') :
    B x.t x'.t = B y.t y'.t := by
  rw [h.2, hB.symm, h'.2, hB.symm]

theorem Spec.Same.quad_congr (hB : IsForm B) {x y x' y' : El R} (h : Same B x y) (h' : Same B x' y') :
    Same B (quad B x x') (quad B y y') := by
  rw [quad_eq hB, quad_eq hB]
  refine ⟨?_, fun z => ?_⟩
  · simp only [h.form hB h', h.form hB h, h.1, h'.1]
  · simp only [hB.comb, h.form hB h', h.form hB h, h.1, h'.1, h.2, h'.2]

theorem Spec.Same.mul_congr (hB : IsForm B) {x y x' y' : El R} (h : Same B x y) (h' : Same B x' y') :
    Same B (mul B x x') (mul B y y') := by
  refine ⟨?_, fun z => ?_⟩
  · simp only [Spec.mul, h.form hB h', h.1, h'.1]
  · simp only [Spec.mul, hB.comb, h.1, h'.1, h.2, h'.2]

theorem Spec.Same.interior_of (hB : IsForm B) {x y : El R} (h : Same B x y) (hx : Interior B x) :
    Interior B y := by
  unfold Interior at *
  rw [← h.1, ← h.form hB h]
  exact hx

theorem quad_det (hB : IsForm B) (x y : El R) :
    (quad B x y).h ^ 2 - B (quad B x y).t (quad B x y).t =
      (x.h ^ 2 - B x.t x.t) ^ 2 * (y.h ^ 2 - B y.t y.t) := by
  rw [quad_eq hB]
  simp only [hB.comb, hB.comb_right, hB.symm y.t x.t]
  ring

/-- The quadratic representation of an interior point maps the interior to itself. -/
theorem interior_quad (hB : IsForm B) {x y : El R} (hx : Interior B x) (hy : Interior B y) :
    Interior B (quad B x y) := by
  obtain ⟨hx0, hx1⟩ := hx
  obtain ⟨hy0, hy1⟩ := hy
  have hd := quad_det hB x y
  have hpos : 0 < (x.h ^ 2 - B x.t x.t) ^ 2 * (y.h ^ 2 - B y.t y.t) :=
    mul_pos (pow_pos (by linarith) 2) (by linarith)
  refine ⟨?_, by linarith⟩
  have e : (quad B x y).h = (x.h ^ 2 + B x.t x.t) * y.h + 2 * x.h * B x.t y.t := by
    rw [quad_eq hB]
    ring
  rw [e]
  have hc := hB.cauchy x.t y.t
  have hp := hB.nonneg x.t
  have hq := hB.nonneg y.t
  have h1 : (2 * x.h * B x.t y.t) ^ 2 < ((x.h ^ 2 + B x.t x.t) * y.h) ^ 2 := by
    have a1 : (2 * x.h * B x.t y.t) ^ 2 ≤ 4 * x.h ^ 2 * (B x.t x.t * B y.t y.t) := by
      have := mul_le_mul_of_nonneg_left hc (show (0 : R) ≤ 4 * x.h ^ 2 by positivity)
      nlinarith [this]
    have a2 : 4 * x.h ^ 2 * (B x.t x.t * B y.t y.t) ≤ 4 * x.h ^ 2 * (B x.t x.t * y.h ^ 2) :=
      mul_le_mul_of_nonneg_left (mul_le_mul_of_nonneg_left hy1.le hp) (by positivity)
    have a3 : 0 < (x.h ^ 2 - B x.t x.t) ^ 2 * y.h ^ 2 :=
      mul_pos (pow_pos (by linarith) 2) (pow_pos hy0 2)
    have a4 : ((x.h ^ 2 + B x.t x.t) * y.h) ^ 2 =
        (x.h ^ 2 - B x.t x.t) ^ 2 * y.h ^ 2 + 4 * x.h ^ 2 * (B x.t x.t * y.h ^ 2) := by ring
    rw [a4]
    linarith
  have h2 : 0 ≤ (x.h ^ 2 + B x.t x.t) * y.h := mul_nonneg (by positivity) hy0.le
  have := abs_lt_of_sq_lt_sq h1 h2
  have := (abs_lt.1 this).1
  linarith

/-- The quadratic representation is symmetric for the trace inner product. -/
theorem tr_quad (hB : IsForm B) (z x y : El R) : tr B (quad B z x) y = tr B x (quad B z y) := by
  rw [quad_eq hB, quad_eq hB]
  unfold tr mul
  simp only [hB.comb, hB.comb_right, hB.symm z.t x.t]
  ring

/-- Applying it twice is applying the quadratic representation of the square. -/
theorem quad_quad (hB : IsForm B) (z y : El R) :
    quad B z (quad B z y) = quad B (mul B z z) y := by
  rw [quad_eq hB, quad_eq hB, quad_eq hB]
  unfold mul
  simp only [hB.comb, hB.comb_right]
  congr 1
  · ring
  · funext i
    ring

theorem quad_one (hB : IsForm B) (z : El R) : quad B z one = mul B z z := by
  rw [quad_eq hB]
  have h0 : B z.t (fun _ => 0) = 0 := by rw [hB.symm]; exact hB.zero_left _
  unfold mul one
  simp only [h0]
  congr 1
  · ring
  · funext i
    ring

theorem tr_congr (hB : IsForm B) {x y x' y' : El R} (h : Same B x y) (h' : Same B x' y') :
    tr B x x' = tr B y y' := by
  unfold tr Spec.mul
  simp only [h.form hB h', h.1, h'.1]

/-- `y` takes the value `a` at the eigenvalue `x₀ + k` and `b` at `x₀ - k`, where `k` is the norm of the
tail of `x`. -/
structure Val (B : (Nat → R) → (Nat → R) → R) (x : El R) (k a b : R) (y : El R) : Prop where
  norm_nonneg : 0 ≤ k
  norm_sq : k * k = B x.t x.t
  head : y.h = (a + b) / 2
  tail : 0 < k → ∀ i, y.t i = (a - b) / (2 * k) * x.t i
  flat : k = 0 → a = b ∧ B y.t y.t = 0

theorem Val.cases {x y : El R} {k a b : R} (h : Val B x k a b y) :
    (0 < k ∧ y.t = fun i => (a - b) / (2 * k) * x.t i) ∨ (k = 0 ∧ a = b ∧ B y.t y.t = 0) := by
  rcases h.norm_nonneg.eq_or_lt with h0 | h0
  · exact .inr ⟨h0.symm, h.flat h0.symm⟩
  · exact .inl ⟨h0, funext (h.tail h0)⟩

theorem Val.det (hB : IsForm B) {x y : El R} {k a b : R} (h : Val B x k a b y) :
    y.h ^ 2 - B y.t y.t = a * b := by
  rw [h.head]
  rcases h.cases with ⟨h0, h1⟩ | ⟨-, rfl, h1⟩
  · rw [h1, hB.smul, hB.smul_right, ← h.norm_sq]
    field_simp
    ring
  · rw [h1]
    ring

theorem Val.interior (hB : IsForm B) {x y : El R} {k a b : R} (h : Val B x k a b y) (ha : 0 < a)
    (hb : 0 < b) : Interior B y := by
  refine ⟨by rw [h.head]; linarith, ?_⟩
  have := h.det hB
  have := mul_pos ha hb
  linarith

theorem Val.cone (hB : IsForm B) {x y : El R} {k a b : R} (h : Val B x k a b y) (ha : 0 ≤ a)
    (hb : 0 ≤ b) : Cone B y := by
  refine ⟨by rw [h.head]; linarith, ?_⟩
  have := h.det hB
  have := mul_nonneg ha hb
  linarith

/-- The square root squares back. -/
theorem Val.sq (hB : IsForm B) {x y : El R} {k a b : R} (h : Val B x k a b y) (ha : a * a = x.h + k)
    (hb : b * b = x.h - k) : Same B (mul B y y) x := by
  rcases h.cases with ⟨h0, h1⟩ | ⟨h0, rfl, h1⟩
  · refine ⟨?_, fun z => ?_⟩
    · unfold mul
      simp only [h1, hB.smul, hB.smul_right, ← h.norm_sq, h.head]
      field_simp
      linear_combination 2 * ha + 2 * hb
    · unfold mul
      simp only [h1, hB.comb, hB.smul, h.head]
      have : (a - b) * (a + b) = 2 * k := by linear_combination ha - hb
      have e : (a + b) / 2 * ((a - b) / (2 * k) * B x.t z) +
          (a + b) / 2 * ((a - b) / (2 * k) * B x.t z) =
          ((a - b) * (a + b)) / (2 * k) * B x.t z := by
        field_simp
        ring
      rw [e, this, div_self (by positivity), one_mul]
  · have hx : B x.t x.t = 0 := by rw [← h.norm_sq, h0, zero_mul]
    refine ⟨?_, fun z => ?_⟩
    · unfold mul
      simp only [h1, h.head]
      rw [h0] at ha
      linear_combination ha
    · unfold mul
      simp only [hB.comb, hB.kernel h1, hB.kernel hx]
      ring

/-- A function applied to the eigenvalues. -/
theorem Val.isFun (hB : IsForm B) {x y : El R} {k : R} {f : R → R}
    (h : Val B x k (f (x.h + k)) (f (x.h - k)) y) : IsFun B f x y := by
  rcases h.cases with ⟨h0, h1⟩ | ⟨h0, -, h1⟩
  · have hk : k ≠ 0 := h0.ne'
    have hn := h.norm_sq
    refine ⟨⟨1 / 2, fun i => 1 / (2 * k) * x.t i⟩, ⟨1 / 2, fun i => -1 / (2 * k) * x.t i⟩,
      x.h + k, x.h - k, ⟨?_, fun z => ?_⟩, ⟨?_, fun z => ?_⟩, ⟨?_, fun z => ?_⟩, ⟨?_, fun z => ?_⟩,
      ⟨?_, fun z => ?_⟩, ⟨?_, fun z => ?_⟩⟩
    all_goals simp only [mul, add, smul, one, hB.add, hB.smul, hB.smul_right, hB.zero_left, ← hn, h.head, h1]
    all_goals field_simp
    all_goals ring
  · have hx : B x.t x.t = 0 := by rw [← h.norm_sq, h0, zero_mul]
    refine ⟨one, ⟨0, fun _ => 0⟩, x.h, 0, ⟨?_, fun z => ?_⟩, ⟨?_, fun z => ?_⟩, ⟨?_, fun z => ?_⟩,
      ⟨?_, fun z => ?_⟩, ⟨?_, fun z => ?_⟩, ⟨?_, fun z => ?_⟩⟩
    all_goals simp [mul, add, smul, one, hB.add, hB.smul, hB.zero_left, h.head, h0, hB.kernel hx,
      hB.kernel h1]

/-- The eigenvalues. -/
theorem eig_of_norm {x : El R} {k : R} (h : k * k = B x.t x.t) : Eig B x (x.h + k) (x.h - k) :=
  ⟨by ring, by rw [← h]; ring⟩

end Verif.Spin
