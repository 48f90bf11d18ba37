import Verif.Lemmas.CenteringScalar
import Verif.Lemmas.DualCertificate
import Verif.Lemmas.GapSpin
import Verif.Spec.ConeCentering

/-!
# Lemmas for C92: a step in one cell
-/

namespace Verif.Spin

open Soc Spec
open ConeCentering.Spec (det inverse)

variable {B : (Nat → ℝ) → (Nat → ℝ) → ℝ}

/-- The inner product of `x` and the conjugate of `y`. -/
def sh (B : (Nat → ℝ) → (Nat → ℝ) → ℝ) (x y : El ℝ) : ℝ := 2 * (x.h * y.h - B x.t y.t)

theorem tr_inverse (hB : IsForm B) (x y : El ℝ) : tr B (inverse B x) y = sh B x y / det B x := by
  unfold inverse tr mul sh
  have e : (fun l => -x.t l / det B x) = fun l => (-1 / det B x) * x.t l := by
    funext l
    ring
  simp only [e, hB.smul]
  ring

theorem tr_inverse_inverse (hB : IsForm B) (x y : El ℝ) :
    tr B (inverse B x) (inverse B y) = tr B x y / (det B x * det B y) := by
  unfold inverse tr mul
  have e : ∀ x : El ℝ, (fun l => -x.t l / det B x) = fun l => (-1 / det B x) * x.t l := fun x => by
    funext l
    ring
  simp only [e, hB.smul, hB.smul_right]
  ring

theorem det_pos {x : El ℝ} (hx : Interior B x) : 0 < det B x := sub_pos.2 hx.2

theorem det_congr (hB : IsForm B) {x y : El ℝ} (h : Same B x y) : det B x = det B y := by
  unfold det
  rw [h.1, h.form hB h]

theorem sh_congr (hB : IsForm B) {x y x' y' : El ℝ} (h : Same B x y) (h' : Same B x' y') :
    sh B x x' = sh B y y' := by
  unfold sh
  rw [h.1, h'.1, h.form hB h']

theorem det_quad (hB : IsForm B) (x y : El ℝ) : det B (quad B x y) = det B x ^ 2 * det B y := quad_det hB x y

theorem sh_quad (hB : IsForm B) (z x y : El ℝ) : sh B (quad B z x) (quad B z y) = det B z ^ 2 * sh B x y := by
  rw [quad_eq hB, quad_eq hB]
  unfold sh det
  simp only [hB.comb, hB.comb_right, hB.symm x.t z.t]
  ring

/-- The quadratic representation, by inner products. -/
theorem tr_quad_eq (hB : IsForm B) (z x y : El ℝ) :
    tr B (quad B z x) y = tr B z x * tr B z y - det B z * sh B x y := by
  rw [quad_eq hB]
  unfold tr mul sh det
  simp only [hB.comb]
  ring

/-- The fundamental formula. -/
theorem quad_quad_quad (hB : IsForm B) (z e x : El ℝ) :
    quad B (quad B z e) x = quad B z (quad B e (quad B z x)) := by
  simp only [quad_eq hB]
  simp only [hB.comb, hB.comb_right, hB.symm z.t e.t]
  congr 1
  · ring
  · funext i
    ring

/-! ### Frames -/

/-- `x` and `y` are functions of one element: `x` takes the values `a`, `b` and `y` the values `a'`, `b'`. -/
structure Frame (B : (Nat → ℝ) → (Nat → ℝ) → ℝ) (u : Nat → ℝ) (x : El ℝ) (a b : ℝ) : Prop where
  head : x.h = (a + b) / 2
  tail : ∀ v, B x.t v = (a - b) / 2 * B u v

/-- The unit of a frame. -/
def Unit (B : (Nat → ℝ) → (Nat → ℝ) → ℝ) (u : Nat → ℝ) (a b : ℝ) : Prop :=
  B u u = 1 ∨ B u u = 0 ∧ a = b

theorem frame_of_fun (hB : IsForm B) {f : ℝ → ℝ} {x y : El ℝ} (h : IsFun B f x y) :
    ∃ u a b, Unit B u a b ∧ Frame B u x a b ∧ Frame B u y (f a) (f b) := by
  obtain ⟨c, d, a, b, h1, -, -, h4, h5, h6⟩ := h
  have c1 : c.h * c.h + B c.t c.t = c.h := h1.1
  have c2 : ∀ v, 2 * c.h * B c.t v = B c.t v := fun v => by
    have := h1.2 v
    simp only [mul, hB.comb] at this
    linarith
  have d1 : d.h = 1 - c.h := by
    have := h4.1
    simp only [add, one] at this
    linarith
  have d2 : ∀ v, B d.t v = -B c.t v := fun v => by
    have := h4.2 v
    simp only [add, one, hB.add, hB.zero_left] at this
    linarith
  have x1 := h5.1
  have y1 := h6.1
  have x2 : ∀ v, B x.t v = a * B c.t v + b * B d.t v := fun v => by
    rw [h5.2]
    simp only [add, smul, hB.add, hB.smul]
  have y2 : ∀ v, B y.t v = f a * B c.t v + f b * B d.t v := fun v => by
    rw [h6.2]
    simp only [add, smul, hB.add, hB.smul]
  simp only [add, smul] at x1 y1
  by_cases hc : c.h = 1 / 2
  · refine ⟨fun i => 2 * c.t i, a, b, Or.inl ?_, ⟨?_, fun v => ?_⟩, ⟨?_, fun v => ?_⟩⟩
    · rw [hB.smul, hB.smul_right]
      rw [hc] at c1
      linarith
    · rw [x1, d1, hc]; ring
    · rw [x2, d2, hB.smul]; ring
    · rw [y1, d1, hc]; ring
    · rw [y2, d2, hB.smul]; ring
  · have c3 : ∀ v, B c.t v = 0 := fun v => by
      have h7 : (2 * c.h - 1) * B c.t v = 0 := by linarith [c2 v]
      rcases mul_eq_zero.1 h7 with h8 | h8
      · exact absurd (by linarith) hc
      · exact h8
    rw [c3, add_zero] at c1
    have hz := hB.zero_left (fun _ => 0)
    have : c.h = 0 ∨ c.h = 1 := by
      have : c.h * (c.h - 1) = 0 := by linarith
      rcases mul_eq_zero.1 this with h | h
      · exact Or.inl h
      · exact Or.inr (by linarith)
    rcases this with h0 | h0
    · refine ⟨fun _ => 0, b, b, Or.inr ⟨hz, rfl⟩, ⟨?_, fun v => ?_⟩, ⟨?_, fun v => ?_⟩⟩
      · rw [x1, d1, h0]; ring
      · rw [x2, d2, c3]; ring
      · rw [y1, d1, h0]; ring
      · rw [y2, d2, c3]; ring
    · refine ⟨fun _ => 0, a, a, Or.inr ⟨hz, rfl⟩, ⟨?_, fun v => ?_⟩, ⟨?_, fun v => ?_⟩⟩
      · rw [x1, d1, h0]; ring
      · rw [x2, d2, c3]; ring
      · rw [y1, d1, h0]; ring
      · rw [y2, d2, c3]; ring

/-- The two diagonal components of a point. -/
def comp (B : (Nat → ℝ) → (Nat → ℝ) → ℝ) (u : Nat → ℝ) (x : El ℝ) : ℝ × ℝ := (x.h + B u x.t, x.h - B u x.t)

theorem Frame.tr (hB : IsForm B) {u : Nat → ℝ} {x : El ℝ} {a b : ℝ} (h : Frame B u x a b) (y : El ℝ) :
    tr B x y = a * (comp B u y).1 + b * (comp B u y).2 := by
  unfold Spec.tr mul comp
  simp only [h.head, h.tail]
  ring

theorem Frame.sh (hB : IsForm B) {u : Nat → ℝ} {x : El ℝ} {a b : ℝ} (h : Frame B u x a b) (y : El ℝ) :
    sh B y x = a * (comp B u y).2 + b * (comp B u y).1 := by
  unfold Spin.sh comp
  rw [hB.symm, h.tail, h.head]
  ring

theorem Frame.det (hB : IsForm B) {u : Nat → ℝ} {x : El ℝ} {a b : ℝ} (h : Frame B u x a b) (hu : Unit B u a b) :
    det B x = a * b := by
  unfold ConeCentering.Spec.det
  rw [h.tail, hB.symm, h.tail, h.head]
  rcases hu with hu | ⟨hu, rfl⟩
  · rw [hu]; ring
  · rw [hu]; ring

theorem Frame.eig (hB : IsForm B) {u : Nat → ℝ} {x : El ℝ} {a b l m : ℝ} (h : Frame B u x a b)
    (hu : Unit B u a b) (he : Eig B x l m) : (a = l ∧ b = m) ∨ (a = m ∧ b = l) := by
  have h1 := h.det hB hu
  unfold ConeCentering.Spec.det at h1
  have h2 := he.1
  have h3 := he.2
  have h4 := h.head
  have h5 : (a - l) * (a - m) = 0 := by linear_combination h3 + h1 - a * h2 - 2 * a * h4
  rcases mul_eq_zero.1 h5 with h6 | h6
  · exact Or.inl ⟨by linarith, by linarith⟩
  · exact Or.inr ⟨by linarith, by linarith⟩

/-- The components of an interior point and the determinant. -/
theorem comp_mul (hB : IsForm B) {u : Nat → ℝ} (hu : B u u ≤ 1) (x : El ℝ) :
    det B x ≤ (comp B u x).1 * (comp B u x).2 := by
  have h1 := hB.cauchy u x.t
  have h2 := mul_le_mul_of_nonneg_right hu (hB.nonneg x.t)
  unfold ConeCentering.Spec.det comp
  simp only
  nlinarith

theorem comp_pos (hB : IsForm B) {u : Nat → ℝ} (hu : B u u ≤ 1) {x : El ℝ} (hx : Interior B x) :
    0 < (comp B u x).1 ∧ 0 < (comp B u x).2 := by
  have h1 := hB.cauchy u x.t
  have h2 := mul_le_mul_of_nonneg_right hu (hB.nonneg x.t)
  have h3 : B u x.t ^ 2 < x.h ^ 2 := by linarith [hx.2]
  have h4 := abs_lt.1 (abs_lt_of_sq_lt_sq h3 hx.1.le)
  unfold comp
  simp only
  constructor <;> linarith

theorem unit_le {u : Nat → ℝ} {a b : ℝ} (h : Unit B u a b) : B u u ≤ 1 := by
  rcases h with h | h
  · exact h.le
  · rw [h.1]; norm_num

/-- The frame of the unit. -/
theorem frame_one (hB : IsForm B) (u : Nat → ℝ) : Frame B u one 1 1 :=
  ⟨by norm_num [one], fun v => by simp [one, hB.zero_left]⟩

theorem Frame.comp (hB : IsForm B) {u : Nat → ℝ} {x : El ℝ} {a b : ℝ} (h : Frame B u x a b) (hu : Unit B u a b) :
    comp B u x = (a, b) := by
  unfold Spin.comp
  rw [hB.symm, h.tail, h.head]
  rcases hu with hu | ⟨hu, rfl⟩
  · rw [hu, Prod.mk.injEq]
    constructor <;> ring
  · rw [hu, Prod.mk.injEq]
    constructor <;> ring

/-! ### Scalars -/

/-- One component of a step, where the product of the two weights is at least one. -/
theorem component {t d α β : ℝ} (ht : 0 < t) (ht' : t ≤ 1) (htd : t * d ^ 2 ≤ 2) (hα : 0 < α) (hαβ : 1 ≤ α * β) :
    β * (Real.exp (-(t * d)) - 1) + α * (Real.exp (t * d) - 1) ≤
      (t + t ^ 2 / 3) * (β * (1 - d) + α * (1 + d) - 2) + (t + t ^ 2 / 3 - t / 10) * d ^ 2 :=
  Centering.component_factors ht ht' htd (Centering.exp_factors ht ht' htd) hα hαβ

/-- One component of two full steps. -/
theorem component_full {d x : ℝ} (hd : |d| ≤ 1) :
    -(1 / 2) * (1 - Real.exp d * x) ^ 2 + 2 - 2 * Real.exp d * (1 - d) + Real.exp d ^ 2 * (1 - d) * x - 2 * x +
      (1 - d) * x - d ^ 2 ≤ d ^ 2 * d ^ 2 := by
  have b1 := Whole.exp_step hd
  have b2 := Whole.exp_step (d := -d) (by rw [abs_neg]; exact hd)
  rw [Real.exp_neg, div_inv_eq_mul, neg_sq] at b2
  have hE := Real.exp_pos d
  set e := Real.exp d
  set u := (1 + d) / e - 1 with hu
  set w := 1 - (1 - d) * e with hw
  have b3 : w ^ 2 ≤ d ^ 2 * d ^ 2 := by
    refine le_trans (le_of_eq ?_) b2
    rw [hw]
    ring
  set D := 1 - e * x with hD
  have e3 : -(1 / 2) * D ^ 2 + 2 - 2 * e * (1 - d) + e ^ 2 * (1 - d) * x - 2 * x +
      (1 - d) * x - d ^ 2 = 1 / 2 * D ^ 2 - (D - u) * (D - w) := by
    rw [hu, hw, hD]
    field_simp
    ring
  rw [e3]
  nlinarith [sq_nonneg (D - u - w)]

end Verif.Spin
