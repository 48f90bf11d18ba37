import Mathlib.Algebra.Order.BigOperators.Ring.Finset
import Verif.Lemmas.QuadCone

/-!
# Duality in a quadratic cone
-/

namespace Verif.Spin

open Finset Soc Spec

variable {R : Type} [Field R] [LinearOrder R] [IsStrictOrderedRing R]
variable {B : (Nat → R) → (Nat → R) → R}

/-- The cone is self-dual. -/
theorem tr_nonneg (hB : IsForm B) {x y : El R} (hx : Cone B x) (hy : Cone B y) : 0 ≤ tr B x y := by
  obtain ⟨hx0, hx1⟩ := hx
  obtain ⟨hy0, hy1⟩ := hy
  have h1 : B x.t y.t ^ 2 ≤ (x.h * y.h) ^ 2 := by
    refine (hB.cauchy _ _).trans ?_
    rw [mul_pow]
    exact mul_le_mul hx1 hy1 (hB.nonneg _) (sq_nonneg _)
  have h2 := (abs_le.1 (abs_le_of_sq_le_sq h1 (mul_nonneg hx0 hy0))).1
  unfold tr mul
  simp only
  linarith

/-- Against an interior point the inner product is positive. -/
theorem tr_pos (hB : IsForm B) {x y : El R} (hx : Cone B x) (hx0 : 0 < x.h) (hy : Interior B y) :
    0 < tr B x y := by
  obtain ⟨hy0, hy1⟩ := hy
  have h1 : B x.t y.t ^ 2 < (x.h * y.h) ^ 2 := by
    refine (hB.cauchy _ _).trans_lt ?_
    rw [mul_pow]
    exact (mul_le_mul_of_nonneg_right hx.2 (hB.nonneg _)).trans_lt
      (mul_lt_mul_of_pos_left hy1 (by positivity))
  have h2 := (abs_lt.1 (abs_lt_of_sq_lt_sq h1 (mul_nonneg hx0.le hy0.le))).1
  unfold tr mul
  simp only
  linarith

omit [IsStrictOrderedRing R] in
theorem tr_comm (hB : IsForm B) (x y : El R) : tr B x y = tr B y x := by
  unfold tr mul
  simp only [hB.symm x.t y.t]
  ring

theorem tr_one (hB : IsForm B) (x : El R) : tr B x one = 2 * x.h := by
  have := hB.zero_left x.t
  rw [hB.symm] at this
  unfold tr mul one
  simp only [this]
  ring

/-- Twice the head of `Q(z) x` is the inner product with `z ∘ z`. -/
theorem quad_head (hB : IsForm B) (z x : El R) : 2 * (quad B z x).h = tr B x (mul B z z) := by
  rw [← tr_one hB, tr_quad hB, quad_one hB]

theorem interior_sq (hB : IsForm B) {z : El R} (hz : Interior B z) : Interior B (mul B z z) := by
  rw [← quad_one hB]
  refine interior_quad hB hz ⟨one_pos, ?_⟩
  have := hB.zero_left (fun _ => 0)
  simp only [one, this]
  norm_num

theorem cone_quad (hB : IsForm B) {z x : El R} (hz : Interior B z) (hx : Cone B x) :
    Cone B (quad B z x) := by
  constructor
  · have := tr_nonneg hB hx ⟨(interior_sq hB hz).1.le, (interior_sq hB hz).2.le⟩
    rw [← quad_head hB] at this
    linarith
  · have h1 := quad_det hB z x
    have h2 : 0 ≤ (z.h ^ 2 - B z.t z.t) ^ 2 * (x.h ^ 2 - B x.t x.t) :=
      mul_nonneg (sq_nonneg _) (sub_nonneg.2 hx.2)
    linarith

theorem quad_neg (hB : IsForm B) (z x : El R) :
    (quad B z ⟨-x.h, fun i => -x.t i⟩).h = -(quad B z x).h := by
  have e : B z.t (fun i => -x.t i) = -B z.t x.t := by
    have := hB.smul_right (-1) x.t z.t
    simpa using this
  rw [quad_eq hB, quad_eq hB]
  simp only [e]
  ring

theorem form_neg (hB : IsForm B) (x : Nat → R) : B (fun i => -x i) (fun i => -x i) = B x x := by
  have e : B (fun i => -x i) (fun i => -x i) = -B x (fun i => -x i) := by
    have := hB.smul (-1) x (fun i => -x i)
    simpa using this
  have e' : B x (fun i => -x i) = -B x x := by
    have := hB.smul_right (-1) x x
    simpa using this
  rw [e, e', neg_neg]

/-- The quadratic representation of an interior point reflects the cone. -/
theorem cone_of_quad (hB : IsForm B) {z x : El R} (hz : Interior B z) (hx : Cone B (quad B z x)) :
    Cone B x := by
  have hd : B x.t x.t ≤ x.h ^ 2 := by
    have h1 := quad_det hB z x
    have h2 : 0 < (z.h ^ 2 - B z.t z.t) ^ 2 := pow_pos (sub_pos.2 hz.2) 2
    have h3 : 0 ≤ (z.h ^ 2 - B z.t z.t) ^ 2 * (x.h ^ 2 - B x.t x.t) := by
      have := hx.2
      linarith
    have := nonneg_of_mul_nonneg_right h3 h2
    linarith
  refine ⟨?_, hd⟩
  by_contra hc
  have hc := not_le.1 hc
  have hn : Cone B ⟨-x.h, fun i => -x.t i⟩ := by
    refine ⟨by simp only; linarith, ?_⟩
    simp only [form_neg hB]
    rw [neg_sq]
    exact hd
  have := tr_pos hB hn (by simp only; linarith) (interior_sq hB hz)
  rw [← quad_head hB, quad_neg hB] at this
  linarith [hx.1]

theorem cone_congr (hB : IsForm B) {x y : El R} (h : Same B x y) (hx : Cone B x) : Cone B y := by
  unfold Cone at hx ⊢
  rw [← h.1, ← h.form hB h]
  exact hx

/-- An element with nonnegative eigenvalues is in the cone. -/
theorem cone_of_eig {x : El R} {a b : R} (h : Eig B x a b) (ha : 0 ≤ a) (hb : 0 ≤ b) : Cone B x := by
  refine ⟨by linarith [h.1], ?_⟩
  have := mul_nonneg ha hb
  linarith [h.2]

omit [IsStrictOrderedRing R] in
theorem tr_add (hB : IsForm B) (x y z : El R) : tr B (add x y) z = tr B x z + tr B y z := by
  unfold tr mul add
  simp only [hB.add]
  ring

omit [IsStrictOrderedRing R] in
theorem tr_smul (hB : IsForm B) (a : R) (x z : El R) : tr B (smul a x) z = a * tr B x z := by
  unfold tr mul smul
  simp only [hB.smul]
  ring

/-- The dual point of a Newton step: `2 w - Q(w) s`. -/
def dualPoint (B : (Nat → R) → (Nat → R) → R) (w s : El R) : El R :=
  add (smul 2 w) (smul (-1) (quad B w s))

/-- The inner product of the slack and the dual point is the rank minus the sum of squares of the
eigenvalues of the direction. -/
theorem trace_dual (hB : IsForm B) {w s z d : El R} {a b : R} (hp : Soc.Spec.Prepared B w s z d a b) :
    tr B (dualPoint B w s) s = 2 - b := by
  obtain ⟨h1, h2, h3, l₁, l₂, h4, h5, h6⟩ := hp
  have z0 : ∀ v, B (fun _ => 0) v = 0 := hB.zero_left
  have hdh : d.h = 1 - (quad B z s).h := by
    rw [h3.1]
    simp only [add, one, smul]
    ring
  have hdt : ∀ v, B d.t v = -B (quad B z s).t v := by
    intro v
    rw [h3.2]
    simp only [add, one, smul, hB.smul, zero_add]
    ring
  have hdd : B d.t d.t = B (quad B z s).t (quad B z s).t := by
    rw [hdt, hB.symm, hdt, neg_neg]
  have hww : Same B (quad B w s) (quad B z (quad B z s)) := by
    refine (Same.quad_congr hB h1.symm (Same.refl s)).trans ?_
    rw [quad_quad hB z s]
    exact Same.refl _
  have e : tr B (dualPoint B w s) s = 2 * tr B w s - tr B (quad B w s) s := by
    unfold dualPoint
    rw [tr_add hB, tr_smul hB, tr_smul hB]
    ring
  have e1 : tr B w s = 2 * (quad B z s).h := by
    rw [quad_head hB, tr_comm hB]
    exact tr_congr hB (Same.refl s) h1.symm
  have e2 : tr B (quad B w s) s = tr B (quad B z s) (quad B z s) := by
    rw [tr_congr hB hww (Same.refl s), tr_quad hB]
  rw [e, e1, e2, h6]
  have h7 := h4.1
  have h8 := h4.2
  rw [hdd] at h8
  rw [hdh] at h7 h8
  unfold tr mul
  simp only
  linear_combination ((l₁ + l₂) + 2 * (1 - (quad B z s).h)) * h7 - 2 * h8

/-- Near the centre the slack and the dual point are in the cone, and their inner product is the rank
minus the sum of squares of the eigenvalues of the direction. -/
theorem near (hB : IsForm B) {w s z d : El R} {a b : R} (hp : Soc.Spec.Prepared B w s z d a b)
    (ha : a ≤ 1) : Cone B s ∧ Cone B (dualPoint B w s) ∧ tr B (dualPoint B w s) s = 2 - b := by
  have htr := trace_dual hB hp
  obtain ⟨h1, h2, h3, l₁, l₂, h4, h5, h6⟩ := hp
  have hl₁ := abs_le.1 ((le_max_left |l₁| |l₂|).trans (h5 ▸ ha))
  have hl₂ := abs_le.1 ((le_max_right |l₁| |l₂|).trans (h5 ▸ ha))
  have z0 : ∀ v, B (fun _ => 0) v = 0 := hB.zero_left
  have hdh : d.h = 1 - (quad B z s).h := by
    rw [h3.1]
    simp only [add, one, smul]
    ring
  have hdt : ∀ v, B d.t v = -B (quad B z s).t v := by
    intro v
    rw [h3.2]
    simp only [add, one, smul, hB.smul, zero_add]
    ring
  have hdd : B d.t d.t = B (quad B z s).t (quad B z s).t := by
    rw [hdt, hB.symm, hdt, neg_neg]
  have hqs : Cone B (quad B z s) := by
    refine cone_of_eig (a := 1 - l₁) (b := 1 - l₂) ⟨?_, ?_⟩ (by linarith) (by linarith)
    · have := h4.1
      rw [hdh] at this
      linarith
    · have := h4.2
      have h7 := h4.1
      rw [hdd] at this
      rw [hdh] at this h7
      linear_combination this - h7
  have hs := cone_of_quad hB h2 hqs
  have hone : Cone B (add one d) := by
    refine cone_of_eig (a := 1 + l₁) (b := 1 + l₂) ⟨?_, ?_⟩ (by linarith) (by linarith)
    · have := h4.1
      simp only [add, one]
      linarith
    · have := h4.2
      have h7 := h4.1
      simp only [add, one, zero_add]
      linear_combination this + h7
  have hww : Same B (quad B w s) (quad B z (quad B z s)) := by
    refine (Same.quad_congr hB h1.symm (Same.refl s)).trans ?_
    rw [quad_quad hB z s]
    exact Same.refl _
  have hdual : Same B (quad B z (add one d)) (dualPoint B w s) := by
    have e1 : Same B (add one d) (add (smul 2 one) (smul (-1) (quad B z s))) := by
      refine ⟨?_, fun v => ?_⟩
      · simp only [add, smul, one, hdh]
        ring
      · simp only [add, smul, one, zero_add, mul_zero, hB.smul, hdt]
        ring
    refine (Same.quad_congr hB (Same.refl z) e1).trans ?_
    have e2 : Same B (quad B z (add (smul 2 one) (smul (-1) (quad B z s))))
        (add (smul 2 (mul B z z)) (smul (-1) (quad B z (quad B z s)))) := by
      have lin : ∀ p q : El R, Same B (quad B z (add (smul 2 p) (smul (-1) q)))
          (add (smul 2 (quad B z p)) (smul (-1) (quad B z q))) := by
        intro p q
        rw [quad_eq hB, quad_eq hB, quad_eq hB]
        refine ⟨?_, fun v => ?_⟩
        · simp only [add, smul, hB.comb_right]
          ring
        · simp only [add, smul, hB.comb, hB.comb_right]
          ring
      refine (lin one (quad B z s)).trans ?_
      rw [quad_one hB]
      exact Same.refl _
    refine e2.trans ?_
    unfold dualPoint
    refine ⟨?_, fun v => ?_⟩
    · simp only [add, smul, h1.1, hww.1]
    · simp only [add, smul, hB.comb, h1.2, hww.2]
  exact ⟨hs, cone_congr hB hdual (cone_quad hB h2 hone), htr⟩

omit [IsStrictOrderedRing R] in
/-- A combination of columns. -/
theorem form_slack (hB : IsForm B) (k : R) (c : Nat → R) (A : Nat → Nat → R) (m : Nat) (y v : Nat → R) :
    B (fun i => k * c i - ∑ j ∈ range m, A j i * y j) v =
      k * B c v - ∑ j ∈ range m, y j * B (A j) v := by
  induction m with
  | zero => simp [hB.smul]
  | succ m ih =>
    have e : (fun i => k * c i - ∑ j ∈ range (m + 1), A j i * y j) =
        fun i => (k * c i - ∑ j ∈ range m, A j i * y j) + (-y m) * A m i := by
      funext i
      rw [sum_range_succ]
      ring
    rw [e, hB.add (fun i => k * c i - ∑ j ∈ range m, A j i * y j) (fun i => -y m * A m i), ih, hB.smul,
      sum_range_succ]
    ring

/-- Slack `k c - Σ yⱼ Aⱼ`. -/
def slackOf (c : El R) (A : Nat → El R) (m : Nat) (k : R) (y : Nat → R) : El R :=
  ⟨k * c.h - ∑ j ∈ range m, (A j).h * y j, fun i => k * c.t i - ∑ j ∈ range m, (A j).t i * y j⟩

omit [IsStrictOrderedRing R] in
theorem tr_slack (hB : IsForm B) (c : El R) (A : Nat → El R) (m : Nat) (k : R) (y : Nat → R) (x : El R) :
    tr B (slackOf c A m k y) x = k * tr B c x - ∑ j ∈ range m, y j * tr B (A j) x := by
  unfold tr mul slackOf
  simp only [form_slack hB k c.t (fun j => (A j).t)]
  have : ∑ j ∈ range m, y j * (2 * ((A j).h * x.h + B (A j).t x.t)) =
      2 * ((∑ j ∈ range m, (A j).h * y j) * x.h + ∑ j ∈ range m, y j * B (A j).t x.t) := by
    rw [sum_mul, ← sum_add_distrib, mul_sum]
    exact sum_congr rfl fun j _ => by ring
  rw [this]
  ring

theorem cone_scale (hB : IsForm B) {x : El R} (hx : Cone B x) {a : R} (ha : 0 ≤ a) : Cone B (smul a x) := by
  refine ⟨mul_nonneg ha hx.1, ?_⟩
  simp only [smul, hB.smul, hB.smul_right]
  have := mul_le_mul_of_nonneg_left hx.2 (mul_nonneg ha ha)
  nlinarith [this]

end Verif.Spin
