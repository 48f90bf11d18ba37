import Verif.Lemmas.ConeExists

/-!
# Lemmas for C94: the weighted slack of one cell
-/

namespace Verif.Spin

open Soc Spec
open ConeCentering.Spec (det inverse Below)

variable {B : (Nat → ℝ) → (Nat → ℝ) → ℝ}

/-- `a` and `b` are the eigenvalues of the slack `s`, weighted with `w`. -/
def Eigs (B : (Nat → ℝ) → (Nat → ℝ) → ℝ) (w s : El ℝ) (a b : ℝ) : Prop :=
  a + b = tr B w s ∧ a * b = det B w * det B s

/-- The sum of `(k a - 1)²` over the eigenvalues. -/
noncomputable def gapSq (B : (Nat → ℝ) → (Nat → ℝ) → ℝ) (w s : El ℝ) (k : ℝ) : ℝ :=
  k ^ 2 * tr B (quad B w s) s - 2 * k * tr B w s + 2

theorem sh_self (s : El ℝ) : sh B s s = 2 * det B s := by
  unfold sh det
  ring

theorem gapSq_eigs (hB : IsForm B) {w s : El ℝ} {a b : ℝ} (h : Eigs B w s a b) (k : ℝ) :
    gapSq B w s k = (k * a - 1) ^ 2 + (k * b - 1) ^ 2 := by
  unfold gapSq
  rw [tr_quad_eq hB, sh_self, ← h.1]
  linear_combination 2 * k ^ 2 * h.2

theorem prepared_gap (hB : IsForm B) {w s z d : El ℝ} {a b : ℝ} (hp : Soc.Spec.Prepared B w s z d a b) :
    b = gapSq B w s 1 := by
  have h := trace_dual hB hp
  unfold dualPoint at h
  rw [tr_add hB, tr_smul hB, tr_smul hB] at h
  unfold gapSq
  linarith

/-- The eigenvalues from those of `Q(z) s`, where `z² = w`. -/
theorem eigs_of_eig (hB : IsForm B) {w s z : El ℝ} {a b : ℝ} (hz : Same B (mul B z z) w) (h : Eig B (quad B z s) a b) :
    Eigs B w s a b := by
  have h1 := quad_head hB z s
  have h2 : tr B s (mul B z z) = tr B w s := by
    rw [tr_comm hB]
    unfold tr mul
    have e1 := hz.1
    have e2 := hz.2 s.t
    simp only [mul] at e1 e2
    simp only [e1, e2]
  have h3 := det_congr hB hz
  have h4 : det B (mul B z z) = det B z ^ 2 := by
    rw [← quad_one hB, det_quad hB, det_one hB, mul_one]
  have h5 := det_quad hB z s
  refine ⟨by rw [h.1, h1, h2], ?_⟩
  rw [h.2, ← h3, h4, ← h5]
  rfl

/-- A point with nonnegative determinant and nonnegative inner product with an interior point. -/
theorem cone_of_det (hB : IsForm B) {x w : El ℝ} (hw : Interior B w) (hd : 0 ≤ det B x) (ht : 0 ≤ tr B x w) : Cone B x := by
  unfold det at hd
  refine ⟨?_, by linarith⟩
  by_contra hcon
  have h1 : Cone B (smul (-1) x) := by
    refine ⟨?_, ?_⟩
    · simp only [smul]
      linarith [not_le.1 hcon]
    · simp only [smul, hB.smul, hB.smul_right]
      linarith
  have h2 := tr_pos hB h1 (by simp only [smul]; linarith [not_le.1 hcon]) hw
  rw [tr_smul hB] at h2
  linarith

theorem tr_inverse_self (hB : IsForm B) {w : El ℝ} (hw : Interior B w) : tr B (inverse B w) w = 2 := by
  rw [tr_inverse hB, sh_self, mul_div_assoc, div_self (det_pos hw).ne', mul_one]

theorem sh_inverse (hB : IsForm B) (x w : El ℝ) : sh B x (inverse B w) = tr B w x / det B w := by
  unfold inverse tr mul sh
  have e : (fun l => -w.t l / det B w) = fun l => (-1 / det B w) * w.t l := by
    funext l
    ring
  simp only [e, hB.smul_right, hB.symm x.t w.t]
  ring

theorem det_inverse (hB : IsForm B) {w : El ℝ} (hw : Interior B w) : det B (inverse B w) = 1 / det B w := by
  have h := sh_inverse hB (inverse B w) w
  rw [sh_self, tr_comm hB, tr_inverse_self hB hw] at h
  linear_combination h / 2

theorem det_add (hB : IsForm B) (x y : El ℝ) (t : ℝ) :
    det B (add x (smul t y)) = det B x + t * sh B x y + t ^ 2 * det B y := by
  unfold det sh add smul
  simp only [hB.add, hB.add_right, hB.smul, hB.smul_right, hB.symm y.t x.t]
  ring

/-- Lower bounds for the eigenvalues. -/
theorem below_of_eigs (hB : IsForm B) {w s : El ℝ} (hw : Interior B w) {a b l : ℝ} (h : Eigs B w s a b) (ha : l ≤ a)
    (hb : l ≤ b) : Below B l (inverse B w) s := by
  have e : (⟨s.h - l * (inverse B w).h, fun i => s.t i - l * (inverse B w).t i⟩ : El ℝ) = add s (smul (-l) (inverse B w)) := by
    simp only [add, smul, El.mk.injEq]
    exact ⟨by ring, by funext i; ring⟩
  unfold Below
  rw [e]
  have hD := det_pos hw
  refine cone_of_det hB hw ?_ ?_
  · rw [det_add hB, sh_inverse hB, det_inverse hB hw, ← h.1]
    have : det B s = a * b / det B w := by
      rw [h.2]
      field_simp
    rw [this]
    have e2 : a * b / det B w + -l * ((a + b) / det B w) + (-l) ^ 2 * (1 / det B w) = (a - l) * (b - l) / det B w := by
      field_simp
      ring
    rw [e2]
    exact div_nonneg (mul_nonneg (by linarith) (by linarith)) hD.le
  · rw [tr_add hB, tr_smul hB, tr_inverse_self hB hw, tr_comm hB, ← h.1]
    linarith

/-- Upper bounds for the eigenvalues. -/
theorem eigs_le (hB : IsForm B) {w s : El ℝ} (hw : Interior B w) {a b u : ℝ} (h : Eigs B w s a b)
    (hs : Below B 1 s (smul u (inverse B w))) : a ≤ u ∧ b ≤ u := by
  have e : (⟨(smul u (inverse B w)).h - 1 * s.h, fun i => (smul u (inverse B w)).t i - 1 * s.t i⟩ : El ℝ) =
      add (smul u (inverse B w)) (smul (-1) s) := by
    simp only [add, smul, El.mk.injEq]
    exact ⟨by ring, by funext i; ring⟩
  unfold Below at hs
  rw [e] at hs
  have hD := det_pos hw
  have h1 := tr_nonneg hB hs ⟨hw.1.le, hw.2.le⟩
  rw [tr_add hB, tr_smul hB, tr_smul hB, tr_inverse_self hB hw, tr_comm hB s, ← h.1] at h1
  have h2 : 0 ≤ det B (add (smul u (inverse B w)) (smul (-1) s)) := sub_nonneg.2 hs.2
  have e2 : add (smul u (inverse B w)) (smul (-1) s) = smul (-1) (add s (smul (-u) (inverse B w))) := by
    simp only [add, smul, El.mk.injEq]
    exact ⟨by ring, by funext i; ring⟩
  have e3 : ∀ x : El ℝ, det B (smul (-1) x) = det B x := fun x => by
    unfold det smul
    simp only [hB.smul, hB.smul_right]
    ring
  rw [e2, e3, det_add hB, sh_inverse hB, det_inverse hB hw, ← h.1] at h2
  have : det B s = a * b / det B w := by
    rw [h.2]
    field_simp
  rw [this] at h2
  have e4 : a * b / det B w + -u * ((a + b) / det B w) + (-u) ^ 2 * (1 / det B w) = (u - a) * (u - b) / det B w := by
    field_simp
    ring
  rw [e4, le_div_iff₀ hD, zero_mul] at h2
  constructor <;> by_contra hcon <;> nlinarith [not_le.1 hcon]

/-- Positive eigenvalues of interior slacks. -/
theorem eigs_pos (hB : IsForm B) {w s : El ℝ} (hw : Interior B w) {a b : ℝ} (h : Eigs B w s a b) (hs : Interior B s) :
    0 < a ∧ 0 < b := by
  have h1 := tr_pos hB ⟨hw.1.le, hw.2.le⟩ hw.1 hs
  have h2 := mul_pos (det_pos hw) (det_pos hs)
  rw [← h.1] at h1
  rw [← h.2] at h2
  rcases pos_and_pos_or_neg_and_neg_of_mul_pos h2 with h3 | h3
  · exact h3
  · linarith [h3.1, h3.2]

/-- The distance of `w` from `q⁻¹` is bounded by the inner product with a slack whose weighted eigenvalues are at least `l`. -/
theorem sep_le (hB : IsForm B) {w s q : El ℝ} (hw : Interior B w) (hq : Interior B q) {l : ℝ}
    (hl : Below B l (inverse B w) s) :
    l * sep B w q ≤ tr B (quad B w s) q + tr B (inverse B q) s - 2 * tr B w s := by
  have hD := det_pos hw
  have hE := det_pos hq
  set p := add (quad B w q) (add (inverse B q) (smul (-2) w)) with hp
  have hps : ∀ x, tr B p x = tr B (quad B w q) x + tr B (inverse B q) x - 2 * tr B w x := fun x => by
    rw [hp, tr_add hB, tr_add hB, tr_smul hB]
    ring
  have h1 : tr B p (inverse B w) = sep B w q := by
    rw [hps, tr_quad_eq hB, sh_inverse hB, tr_comm hB w (inverse B w), tr_inverse_self hB hw]
    unfold sep
    rw [tr_comm hB (inverse B q) (inverse B w)]
    field_simp
    ring
  have hcone : Cone B p := by
    refine cone_of_det hB (ConeCentering.inverse_interior hB hw) ?_ (h1 ▸ sep_nonneg hB hw hq)
    have hd1 := det_quad hB w q
    have hd2 := det_inverse hB hq
    have hd3 := sh_inverse hB (quad B w q) q
    have e1 : sh B (inverse B q) w = tr B q w / det B q := by
      rw [← sh_inverse hB w q]
      unfold sh
      rw [hB.symm]
      ring
    have e2 : tr B q (quad B w q) = tr B w q * tr B w q - det B w * (2 * det B q) := by
      rw [tr_comm hB, tr_quad_eq hB, sh_self]
    have e3 : sh B (quad B w q) w = det B w * tr B w q := by
      rw [quad_eq hB]
      unfold sh tr mul det
      simp only [hB.comb, hB.symm q.t w.t]
      ring
    have e5 : det B p = det B (quad B w q) + sh B (quad B w q) (inverse B q) + -2 * sh B (quad B w q) w +
        det B (inverse B q) + -2 * sh B (inverse B q) w + 4 * det B w := by
      rw [hp]
      unfold det sh add smul
      simp only [hB.add, hB.add_right, hB.smul, hB.smul_right, hB.symm w.t, hB.symm (inverse B q).t (quad B w q).t]
      ring
    rw [e5, hd1, hd3, e2, e3, hd2, e1, tr_comm hB q w]
    have e6 : det B w ^ 2 * det B q + (tr B w q * tr B w q - det B w * (2 * det B q)) / det B q +
        -2 * (det B w * tr B w q) + 1 / det B q + -2 * (tr B w q / det B q) + 4 * det B w =
        (tr B w q - 1 - det B w * det B q) ^ 2 / det B q := by
      field_simp
      ring
    rw [e6]
    positivity
  have e : (⟨s.h - l * (inverse B w).h, fun i => s.t i - l * (inverse B w).t i⟩ : El ℝ) = add s (smul (-l) (inverse B w)) := by
    simp only [add, smul, El.mk.injEq]
    exact ⟨by ring, by funext i; ring⟩
  unfold Below at hl
  rw [e] at hl
  have h2 := tr_nonneg hB hl hcone
  rw [tr_comm hB, hps, ← hps, tr_comm hB, tr_add hB, tr_smul hB, tr_comm hB (inverse B w) p, h1, tr_comm hB s, hps,
    tr_quad hB, tr_comm hB q] at h2
  linarith

end Verif.Spin
