import Verif.Lemmas.MatrixCentering
import Verif.Lemmas.TraceDecrease
import Verif.Lemmas.HyperEmbed

/-!
# Lemmas for C97: steps come closer to a central point
-/

namespace Verif.MatrixCentering

open Finset Matrix Verif.Dual Gap Gap.Spec
open Whole.Spec (nth)
open Spec (Inside force separation distance Central Short RealCones HermitianCones SameUpdate cellSlack unknowns
  hyperSlack hyperInverse)

theorem cellSlack_eq (x : Item ℝ) (len : Nat) (c : ℝ) (y : Nat → ℝ) (r : Nat) :
    cellSlack x len c y r = ConeCentering.slackAt x len c y r := by
  simp only [cellSlack, ConeCentering.slackAt, Spin.slackOf, mul_comm]

/-- What is shown of a step of a constraint with `len` variables; `κ` depends on the update. -/
structure Decrease (κ : ℝ) (x x'' : Item ℝ) (len : Nat) (c t : ℝ) (y z : Nat → ℝ) (s : Schur.Sys ℝ) (b : ℝ) : Prop where
  closer : separation x'' len c z ≤ separation x len c z +
    (t + κ * t ^ 2) * ∑ j ∈ range len, (y j - z j) * (res s len c y j - force x len c z j) - t / 10 * b
  inside : ∀ u, Inside x'' len c u ↔ Inside x len c u
  force : ∀ u, force x'' len c u = force x len c u

theorem lmi_decrease {v : Env ℝ} (hv : ∀ x, 0 ≤ x → SolveLoop.Spec.SqrtAt v.sqrt x)
    (htri : Lmi.Spec.TriEigenvalues v.tri) (hso : ∀ n, MatrixExp.Spec.Solves (v.solve n)) {m len : Nat} {o : Lmi.Con m ℝ}
    {w : Lmi.Ws m ℝ} (hm : o.m = len) (ho : Lmi.Spec.Symmetric o) (hW : w.W.PosDef) {c t : ℝ} {y z : Nat → ℝ}
    {x' x'' : Item ℝ} {n : Option ℝ} {b : ℝ}
    (hp : (Item.lmi m o w).prepareStep v c len y = .ok (x', n, b)) (ht : 0 < t) (ht' : t ≤ 1)
    (hb : Short c t y (.lmi m o w)) (hx : x'.takeStep v t = .ok x'') (hz : Inside (.lmi m o w) len c z)
    {s₀ s : Schur.Sys ℝ} (hr : s₀.rows = len) (hs : (Item.lmi m o w).schur v.sqrt s₀ = .ok s) :
    Decrease (1 / 3) (.lmi m o w) x'' len c t y z s b ∧ ∃ w', x'' = .lmi m o w' ∧ w'.W.PosDef := by
  subst hm
  obtain ⟨rfl, -, V, d, e1, e2, e3, e5, -⟩ := lmi_direction hv htri ho hW hp
  simp only [Item.takeStep, Outcome.ok.injEq] at hx
  subst hx
  have hd : ∀ i, t * (1 - d i) ^ 2 ≤ 2 := fun i => hb _ ((Lmi.eigenvalue_iff e1 e3 _).2 ⟨i, rfl⟩)
  have hsq : ∀ i, (t * (1 - d i)) ^ 2 ≤ 2 := fun i => by
    have h1 : (t * (1 - d i)) ^ 2 = t * (t * (1 - d i) ^ 2) := by ring
    have h2 : 0 ≤ t * (1 - d i) ^ 2 := by positivity
    rw [h1]
    nlinarith [hd i]
  have e : ∀ i, t * (-d i + 1) = t * (1 - d i) := fun i => by ring
  have hpp : ∀ i, 0 < MatrixExp.Spec.p (t * (1 - d i)) := fun i => Lmi.p_pos (hsq i)
  have hpn : ∀ i, 0 < MatrixExp.Spec.p (-(t * (1 - d i))) := fun i => Lmi.p_pos (by rw [neg_sq]; exact hsq i)
  have hconj := Lmi.geodesicUpdate_conj (hso m) (W := w.W) (S := -Lmi.Spec.slack o c y) (d := fun i => -d i)
    (Lmi.slack_transpose ho c y) e1 e2 (by
      rw [Matrix.mul_neg, Matrix.neg_mul, e3]
      ext i j
      simp) t 1 (fun i => by rw [e]; exact (hpn i).ne')
  simp only [e] at hconj
  set w' := Lmi.geodesicUpdate (v.solve m) t 1 ⟨w.W, w.W * -Lmi.Spec.slack o c y⟩ with hw'
  have hr0 : ∀ i, 0 < MatrixExp.Spec.p (t * (1 - d i)) / MatrixExp.Spec.p (-(t * (1 - d i))) := fun i =>
    div_pos (hpp i) (hpn i)
  have hW' : w'.W.PosDef := by
    rw [hconj]
    exact (Lmi.posDef_conj e1 _).2 hr0
  obtain ⟨⟨t₁, g1, -, g2⟩, -⟩ := Lmi.C59_schur o ho w.W (Lmi.transpose_of_posDef hW) s₀ hr.ge
  have hs1 : Lmi.schur o w.W true s₀ = .ok s := hs
  rw [hs1, Outcome.ok.injEq] at g1
  subst g1
  have hQ : (Lmi.Spec.slack o c z).PosDef := hz
  have key := decrease_trace e1 e2 e3 hconj hQ (fun i => (hr0 i).ne') fun i => StepScalar.pade_component ht ht' (hd i)
  have hρ := trace_res (A := o.A) (C := o.C) (W := w.W) (m := o.m) (s := s) (δ := 1)
    (fun i hi j hj => by rw [one_mul, g2.G i hi j hj]) (fun i hi => by rw [one_mul, g2.AW i hi])
    (fun i hi => by rw [one_mul, g2.AQc i hi]) (kc := c) (y := y) (S := Lmi.Spec.slack o c y) rfl
  have hS1 : ∀ u, Lmi.Spec.slack o c u = c • o.C - ∑ j ∈ range o.m, u j • o.A j := fun _ => rfl
  rw [trace_cross (δ := 1) (hS1 z) (hS1 y) (ρ := force (.lmi m o w) o.m c z) (fun j _ => one_mul _) hρ, ← e5] at key
  refine ⟨⟨?_, fun _ => Iff.rfl, fun _ => rfl⟩, _, rfl, hW'⟩
  have e6 : separation (.lmi m o w') o.m c z =
      (w'.W * Lmi.Spec.slack o c z).trace + (w'.W⁻¹ * (Lmi.Spec.slack o c z)⁻¹).trace - 2 * m := rfl
  have e7 : separation (.lmi m o w) o.m c z =
      (w.W * Lmi.Spec.slack o c z).trace + (w.W⁻¹ * (Lmi.Spec.slack o c z)⁻¹).trace - 2 * m := rfl
  change separation (.lmi m o w') o.m c z ≤ _
  rw [e6, e7]
  linarith

open Hyper HermLmi in
theorem separation_hermitian {d m : Nat} {hd : NeZero d} {o : HermLmi.Con d m ℝ} {w : HermLmi.Ws d m ℝ}
    (h4 : d = 1 ∨ d = 2 ∨ d = 4) (hW : HermLmi.Spec.PosDef w.W) (len : Nat) (c : ℝ) (z : Nat → ℝ) :
    (d : ℝ) * separation (.hermitian d m hd o w) len c z = (lmat w.W * lmat (hyperSlack o c z)).trace +
      ((lmat w.W)⁻¹ * (lmat (hyperSlack o c z))⁻¹).trace - 2 * (d * m) := by
  have hD := dim_of_assoc h4
  have e : separation (.hermitian d m hd o w) len c z = HermLmi.Spec.inner w.W (hyperSlack o c z) +
      HermLmi.Spec.inner (hyperInverse w.W) (hyperInverse (hyperSlack o c z)) - 2 * m := rfl
  rw [e, mul_sub, mul_add, inner_lmat hD hW.1 _ h4, inner_lmat hD (hermitian_inverse h4 hW.1) _ h4, lmat_inverse h4,
    lmat_inverse h4]
  ring

open Hyper HermLmi in
theorem hermitian_decrease {v : Env ℝ} (hv : ∀ x, 0 ≤ x → SolveLoop.Spec.SqrtAt v.sqrt x)
    (htri : Lmi.Spec.TriEigenvalues v.tri) {d m len : Nat} {hd : NeZero d} {o : HermLmi.Con d m ℝ}
    {w : HermLmi.Ws d m ℝ} (hm : o.mats.length = len) (h4 : d = 1 ∨ d = 2 ∨ d = 4) (ho : HermLmi.Spec.HermitianData o)
    (hW : HermLmi.Spec.PosDef w.W) {c t : ℝ} {y z : Nat → ℝ} {x' x'' : Item ℝ} {n : Option ℝ} {b : ℝ}
    (hp : (Item.hermitian d m hd o w).prepareStep v c len y = .ok (x', n, b)) (ht : 0 < t) (ht' : t ≤ 1)
    (hb : Short c t y (.hermitian d m hd o w)) (hx : x'.takeStep v t = .ok x'')
    (hz : Inside (.hermitian d m hd o w) len c z)
    {s₀ s : Schur.Sys ℝ} (hr : s₀.rows = len) (hs : (Item.hermitian d m hd o w).schur v.sqrt s₀ = .ok s) :
    Decrease (5 / 16) (.hermitian d m hd o w) x'' len c t y z s b ∧
      ∃ w', x'' = .hermitian d m hd o w' ∧ HermLmi.Spec.PosDef w'.W := by
  subst hm
  have hD := dim_of_assoc h4
  have hd0 : (0 : ℝ) < d := by
    have : 0 < d := by omega
    exact_mod_cast this
  obtain ⟨w', C, rfl, hC, a1, a2, -, V, l, e1, e2, e3, e5, -, -⟩ := hermitian_direction hv htri h4 ho hW hp
  simp only [Item.takeStep, Outcome.ok.injEq] at hx
  subst hx
  have hsl : ∀ u, hyperSlack o c u = HermLmi.Spec.slack o.mats C c u := fun u => by
    unfold hyperSlack
    rw [hC]
    rfl
  have hle : ∀ i, t * (1 - l i) ^ 2 ≤ 2 := fun i => by
    refine hb _ hC _ ?_
    rw [eigenvalue_lmat, lmat_multiply h4]
    exact (Lmi.eigenvalue_iff e1 e3 _).2 ⟨i, rfl⟩
  have hconj := takeStep_conj h4 (w := w') (S := scalarMultiply (HermLmi.Spec.slack o.mats C c y) (-1)) (by rw [a1, a2])
    (V := V) (l := fun i => -l i) (by rw [a1]; exact e2) (by
      rw [a1, lmat_scalar, neg_one_smul, Matrix.mul_neg, Matrix.neg_mul, e3]
      ext i j
      simp) t 1
  have hpos := HermLmi.C60_step h4 w' (a1 ▸ hW) _
    (HermLmi.hermitian_scalar (HermLmi.hermitian_slack hC ho c y) (-1)) (by rw [a1]; exact a2) t 1
  set w'' := HermLmi.takeStep t 1 w' with hw''
  have e : ∀ i, t * (-l i + 1) = t * (1 - l i) := fun i => by ring
  simp only [e] at hconj
  have hconj' : lmat w''.W = V * (diagonal fun i => Centering.tay (t * (1 - l i))) * Vᵀ := hconj
  obtain ⟨⟨t₁, g1, -, g2⟩, -⟩ := HermLmi.C62_schur hD o ho w.W hW.1 C hC s₀ hr.ge
  have hs1 : HermLmi.schur o w.W true s₀ = .ok s := hs
  rw [hs1, Outcome.ok.injEq] at g1
  subst g1
  have hQ : ∀ W X : HMat d m ℝ, lmat (quadRep W X) = lmat W * lmat X * lmat W := fun W X => by
    rw [quadRep_assoc h4, lmat_multiply h4, lmat_multiply h4]
  have hz' : (lmat (hyperSlack o c z)).PosDef := (posDef_lmat hD _).1 hz
  rw [hsl] at hz'
  have key := decrease_trace e1 e2 e3 hconj' hz' (fun i => (Centering.tay_pos _).ne')
    fun i => StepScalar.taylor_component ht ht' (hle i)
  have hρ := trace_res (A := fun i => lmat (o.mats.getD i fun _ => 0)) (C := lmat C) (W := lmat w.W)
    (m := o.mats.length) (s := s) (δ := d)
    (fun i hi j hj => by rw [g2.G i hi j hj, inner_lmat hD (hermitian_mats ho i) _ h4, hQ])
    (fun i hi => by rw [g2.AW i hi, inner_lmat hD (hermitian_mats ho i) _ h4])
    (fun i hi => by rw [g2.AQc i hi, inner_lmat hD (hermitian_mats ho i) _ h4, hQ]) (kc := c) (y := y)
    (S := lmat (HermLmi.Spec.slack o.mats C c y)) (lmat_slack _ _ _ _)
  have hf : ∀ j < o.mats.length, (d : ℝ) * force (.hermitian d m hd o w) o.mats.length c z j =
      (lmat (o.mats.getD j fun _ => 0) * (lmat (HermLmi.Spec.slack o.mats C c z))⁻¹).trace := fun j _ => by
    have e : force (.hermitian d m hd o w) o.mats.length c z j =
      HermLmi.Spec.inner (o.mats.getD j fun _ => 0) (hyperInverse (hyperSlack o c z)) := rfl
    rw [e, inner_lmat hD (hermitian_mats ho j) _ h4, lmat_inverse h4, hsl]
  rw [trace_cross (δ := d) (lmat_slack _ _ _ _) (lmat_slack _ _ _ _) hf hρ, ← e5] at key
  refine ⟨⟨?_, fun _ => Iff.rfl, fun _ => rfl⟩, _, rfl, hpos⟩
  have e6 := separation_hermitian (hd := hd) (o := o) h4 hW o.mats.length c z
  have e7 := separation_hermitian (hd := hd) (o := o) h4 hpos o.mats.length c z
  rw [hsl] at e6 e7
  refine le_of_mul_le_mul_left ?_ hd0
  change (d : ℝ) * separation (.hermitian d m hd o w'') o.mats.length c z ≤ _
  rw [e7, mul_sub, mul_add, e6]
  linarith

open ConeCentering ConeCentering.Spec Spin in
theorem vector_decrease {v : Env ℝ} (hv : ∀ x, 0 ≤ x → SolveLoop.Spec.SqrtAt v.sqrt x) (hexp : v.exp = Real.exp)
    {x x' x'' : Item ℝ} {len : Nat} (hk : ConeCentering.Kind x len)
    (hw : ∀ r < cells x, Spin.Spec.Interior (form x) (point x r)) {κ c t A : ℝ} (hκ : 0 ≤ κ)
    (hκ' : κ = 1 / 3 ∨ cells x = 0) {y z : Nat → ℝ} {n : Option ℝ} {b : ℝ}
    (hp : x.prepareStep v c len y = .ok (x', n, b)) (ht : 0 < t) (ht' : t ≤ 1)
    (hA : t * (A * A) ≤ 2) (hn : ∀ n', n = some n' → n' ≤ A) (hx : x'.takeStep v t = .ok x'') (hz : Inside x len c z)
    {s₀ s : Schur.Sys ℝ} (hr : s₀.rows = len) (hs : x.schur v.sqrt s₀ = .ok s) :
    Decrease κ x x'' len c t y z s b ∧ ConeCentering.Kind x'' len ∧
      ∀ r < cells x'', Spin.Spec.Interior (form x'') (point x'' r) := by
  obtain ⟨hkin, hw', q, a, rfl, h1, h2, h3⟩ := ConeCentering.item_step hv hexp hk hw hp hx
  have hd := hkin.data
  have hk' := hkin.kind hk
  have hB := hk.form
  have hsl : ∀ r u, slackAt x'' len c u r = slackAt x len c u r := fun r u => by
    unfold slackAt
    rw [hd.column, hd.affine]
  have hr1 := item_res hv hk hw hr hs c y
  -- the definitions, for vectors
  have vec : ∀ x : Item ℝ, ConeCentering.Kind x len →
      (∀ u, Inside x len c u ↔ ∀ r < cells x, Spin.Spec.Interior (form x) (slackAt x len c u r)) ∧
      (∀ u j, MatrixCentering.Spec.force x len c u j = ∑ r ∈ range (cells x), pair x (column x r j) (inverse (form x) (slackAt x len c u r)) +
        Centering.Spec.gradient u x j) ∧
      ∀ u, MatrixCentering.Spec.separation x len c u = ∑ r ∈ range (cells x), half x * sep (form x) (point x r) (slackAt x len c u r) := by
    intro x hk
    simp only [← cellSlack_eq, ← separation_eq]
    rcases hk.vector with ⟨o, w, rfl⟩ | ⟨o, w, rfl⟩ | ⟨o, w, rfl⟩ | ⟨n, Q, rfl⟩ <;>
      exact ⟨fun _ => Iff.rfl, fun _ _ => rfl, fun _ => rfl⟩
  obtain ⟨v1, v2, v3⟩ := vec x hk
  obtain ⟨v1', v2', v3'⟩ := vec x'' hk'
  have hz := (v1 z).1 hz
  refine ⟨⟨?_, fun u => ?_, fun u => ?_⟩, hk', fun r hr => ?_⟩
  rotate_left
  · rw [v1, v1', hd.cells, hd.form]
    simp only [hsl]
  · funext j
    rw [v2, v2', hd.cells, hd.form, hd.column, hd.gradient]
    simp only [hsl, hd.pair]
  · rw [hd.form]
    exact hw' r (hd.cells ▸ hr)
  rw [v3, v3', hd.cells, hd.half, hd.form]
  simp only [hsl]
  -- the cells
  have hcell : ∀ r ∈ range (cells x), half x * sep (form x) (point x'' r) (slackAt x len c z r) -
      half x * sep (form x) (point x r) (slackAt x len c z r) ≤ (t + κ * t ^ 2) * (-(half x * cross (form x)
        (dualPoint (form x) (point x r) (slackAt x len c y r)) (inverse (form x) (slackAt x len c z r))
        (slackAt x len c y r) (slackAt x len c z r))) - t / 10 * (half x * q r) := by
    intro r hr
    have hr := mem_range.1 hr
    rcases hκ' with rfl | h0
    swap
    · rw [h0] at hr
      exact absurd hr (Nat.not_lt_zero r)
    have e : t + 1 / 3 * t ^ 2 = t + t ^ 2 / 3 := by ring
    rw [e]
    obtain ⟨z1, d1, a1, g1, g2, g3⟩ := h1 r hr
    have h0 := (prepared_nonneg g1).1
    have hta : t * (a1 * a1) ≤ 2 :=
      have g4 := g3.trans (hn a rfl)
      (mul_le_mul_of_nonneg_left (mul_le_mul g4 g4 h0 (h0.trans g4)) ht.le).trans hA
    have h4 := cell_decrease hB g1 g2 (hz r hr) ht ht' hta
    have h5 := mul_le_mul_of_nonneg_left h4 (half_pos x).le
    linarith
  have hsum := sum_le_sum hcell
  rw [sum_sub_distrib, sum_sub_distrib, ← mul_sum _ _ (t + κ * t ^ 2), ← mul_sum _ _ (t / 10), ← h2] at hsum
  -- the residuals
  have hgm : 0 ≤ ∑ j ∈ range len, (y j - z j) * (Centering.Spec.gradient y x j - Centering.Spec.gradient z x j) := by
    rcases hk with ⟨o, w, rfl, -⟩ | ⟨o, w, rfl, -⟩ | ⟨o, w, rfl, -⟩ | ⟨n, Q, rfl, rfl, hQ⟩
    · simp [Centering.Spec.gradient]
    · simp [Centering.Spec.gradient]
    · simp [Centering.Spec.gradient]
    · refine (hQ.2 fun j => y j - z j).trans (le_of_eq ?_)
      refine sum_congr rfl fun j _ => ?_
      simp only [Centering.Spec.gradient]
      rw [← sum_sub_distrib]
      congr 1
      exact sum_congr rfl fun l _ => by ring
  have hpair : ∀ (X : Soc.El ℝ) (r : Nat), ∑ j ∈ range len, (y j - z j) * pair x (column x r j) X =
      -(half x * (Spin.Spec.tr (form x) X (slackAt x len c y r) - Spin.Spec.tr (form x) X (slackAt x len c z r))) := by
    intro X r
    unfold slackAt
    rw [tr_comm hB, tr_slack hB, tr_comm hB X, tr_slack hB]
    simp only [pair_eq]
    have : ∑ j ∈ range len, (y j - z j) * (half x * Spin.Spec.tr (form x) (column x r j) X) =
        half x * (∑ j ∈ range len, y j * Spin.Spec.tr (form x) (column x r j) X -
          ∑ j ∈ range len, z j * Spin.Spec.tr (form x) (column x r j) X) := by
      rw [← sum_sub_distrib, mul_sum]
      exact sum_congr rfl fun j _ => by ring
    rw [this]
    ring
  have e3 : ∑ j ∈ range len, (y j - z j) * (res s len c y j - MatrixCentering.Spec.force x len c z j) =
      ∑ r ∈ range (cells x), -(half x * cross (form x)
        (dualPoint (form x) (point x r) (slackAt x len c y r)) (inverse (form x) (slackAt x len c z r))
        (slackAt x len c y r) (slackAt x len c z r)) +
      ∑ j ∈ range len, (y j - z j) * (Centering.Spec.gradient y x j - Centering.Spec.gradient z x j) := by
    have f1 : ∀ j ∈ range len, (y j - z j) * (res s len c y j - MatrixCentering.Spec.force x len c z j) =
        (∑ r ∈ range (cells x), (y j - z j) * pair x (column x r j)
          (dualPoint (form x) (point x r) (slackAt x len c y r))) -
        (∑ r ∈ range (cells x), (y j - z j) * pair x (column x r j) (inverse (form x) (slackAt x len c z r))) +
        (y j - z j) * (Centering.Spec.gradient y x j - Centering.Spec.gradient z x j) := by
      intro j hj
      rw [hr1 j (mem_range.1 hj), v2, ← mul_sum, ← mul_sum]
      ring
    rw [sum_congr rfl f1, sum_add_distrib, sum_sub_distrib, sum_comm, sum_comm (s := range len) (t := range (cells x)),
      ← sum_sub_distrib]
    congr 1
    refine sum_congr rfl fun r _ => ?_
    rw [hpair, hpair]
    unfold cross
    ring
  rw [e3]
  have : 0 ≤ (t + κ * t ^ 2) * ∑ j ∈ range len, (y j - z j) *
      (Centering.Spec.gradient y x j - Centering.Spec.gradient z x j) := mul_nonneg (by positivity) hgm
  linarith

/-- The number `κ` belongs to the update of the constraint. -/
def Uses (κ : ℝ) (x : Item ℝ) : Prop :=
  (κ = 1 / 3 ∧ ∀ d m hd o w, x ≠ .hermitian d m hd o w) ∨
    (κ = 5 / 16 ∧ ((∃ d m hd o w, x = .hermitian d m hd o w) ∨ ∃ n Q, x = .cost n Q))

theorem sameUpdate_iff (es : List (Entry ℝ)) : SameUpdate es ↔ ∃ κ, ∀ e ∈ es, Uses κ e.item := by
  constructor
  · rintro (h | h)
    · exact ⟨1 / 3, fun e he => Or.inl ⟨rfl, h e he⟩⟩
    · exact ⟨5 / 16, fun e he => Or.inr ⟨rfl, h e he⟩⟩
  · rintro ⟨κ, h⟩
    by_cases hκ : κ = 1 / 3
    · refine Or.inl fun e he => ?_
      rcases h e he with ⟨-, h⟩ | ⟨h, -⟩
      · exact h
      · rw [hκ] at h
        norm_num at h
    · refine Or.inr fun e he => ?_
      rcases h e he with ⟨h, -⟩ | ⟨-, h⟩
      · exact absurd h hκ
      · exact h

/-- A step of any constraint. -/
theorem item_decrease {v : Env ℝ} (hv : ∀ x, 0 ≤ x → SolveLoop.Spec.SqrtAt v.sqrt x) (hexp : v.exp = Real.exp)
    (htri : Lmi.Spec.TriEigenvalues v.tri) (hso : ∀ n, MatrixExp.Spec.Solves (v.solve n)) {vars : List Nat} {N : Nat}
    {x x' x'' : Item ℝ} (hg : Gap.Spec.Good ⟨vars, x⟩ N) (hu : Iteration.Spec.Usable x)
    {κ : ℝ} (hκ : Uses κ x) {c t b A : ℝ} {y z : Nat → ℝ}
    {n : Option ℝ} (hp : x.prepareStep v c vars.length y = .ok (x', n, b)) (ht : 0 < t) (ht' : t ≤ 1)
    (hA : t * (A * A) ≤ 2) (hn : ∀ n', n = some n' → n' ≤ A) (hb : Short c t y x) (hx : x'.takeStep v t = .ok x'')
    (hz : Inside x vars.length c z)
    {s₀ s : Schur.Sys ℝ} (hr : s₀.rows = vars.length) (hs : x.schur v.sqrt s₀ = .ok s) :
    Decrease κ x x'' vars.length c t y z s b ∧ Uses κ x'' ∧ Gap.Spec.Good ⟨vars, x''⟩ N ∧ SameData x x'' := by
  have he : ∀ x, 0 < v.exp x := fun x => hexp ▸ Real.exp_pos x
  rcases kind_of hg hu with ⟨m, o, w, rfl⟩ | ⟨d, m, hd, o, w, rfl⟩ | ⟨hk, hw⟩
  · obtain ⟨g1, g2, h1, h2, h3⟩ := hg
    obtain ⟨h4, w', rfl, h5⟩ := lmi_decrease hv htri hso h1 h2 h3 hp ht ht' hb hx hz hr hs
    rcases hκ with ⟨rfl, -⟩ | ⟨-, ⟨_, _, _, _, _, h⟩ | ⟨_, _, h⟩⟩
    · exact ⟨h4, Or.inl ⟨rfl, fun _ _ _ _ _ h => by cases h⟩, ⟨g1, g2, h1, h2, h5⟩, fun _ => Iff.rfl, fun _ => rfl, rfl,
        fun o' h => by cases h⟩
    · cases h
    · cases h
  · obtain ⟨g1, g2, h1, h2, h3, h4⟩ := hg
    obtain ⟨h5, w', rfl, h6⟩ := hermitian_decrease hv htri h1 h2 h3 h4 hp ht ht' hb hx hz hr hs
    rcases hκ with ⟨-, h⟩ | ⟨rfl, -⟩
    · exact absurd rfl (h d m hd o w)
    · exact ⟨h5, Or.inr ⟨rfl, Or.inl ⟨d, m, hd, o, w', rfl⟩⟩, ⟨g1, g2, h1, h2, h3, h6⟩, fun _ => Iff.rfl, fun _ => rfl, rfl,
        fun o' h => by cases h⟩
  · have hκ' : κ = 1 / 3 ∨ ConeCentering.Spec.cells x = 0 := by
      rcases hκ with ⟨h, -⟩ | ⟨-, ⟨_, _, _, _, _, h⟩ | ⟨_, _, h⟩⟩
      · exact Or.inl h
      · subst h
        rcases hk.vector with ⟨_, _, h⟩ | ⟨_, _, h⟩ | ⟨_, _, h⟩ | ⟨_, _, h⟩ <;> cases h
      · subst h
        exact Or.inr rfl
    have hκ0 : 0 ≤ κ := by
      rcases hκ with ⟨h, -⟩ | ⟨h, -⟩ <;> rw [h] <;> norm_num
    obtain ⟨h1, h2, -⟩ := vector_decrease hv hexp hk hw hκ0 hκ' hp ht ht' hA hn hx hz hr hs
    have ht1 : SolveLoop.stepSize (Real.sqrt (2 / t)) = t := by
      unfold SolveLoop.stepSize
      have h3 : 0 < 2 / t := by positivity
      rw [if_neg (Real.sqrt_pos.2 h3).ne', Real.mul_self_sqrt h3.le, div_div_cancel₀ two_ne_zero]
      split_ifs with h4
      · linarith
      · rfl
    obtain ⟨g1, g2⟩ := Gap.item_step (vars := vars) (A := Real.sqrt (2 / t)) hv he hso hg hp (fun m o w h => by
      subst h
      rcases hk.vector with ⟨_, _, h⟩ | ⟨_, _, h⟩ | ⟨_, _, h⟩ | ⟨_, _, h⟩ <;> cases h) (by rw [ht1]; exact hx)
    refine ⟨h1, ?_, g1, g2⟩
    rcases hκ with ⟨h, -⟩ | ⟨h, ⟨_, _, _, _, _, h'⟩ | ⟨n', Q, h'⟩⟩
    · refine Or.inl ⟨h, fun d m hd o w h => ?_⟩
      subst h
      rcases h2.vector with ⟨_, _, h⟩ | ⟨_, _, h⟩ | ⟨_, _, h⟩ | ⟨_, _, h⟩ <;> cases h
    · subst h'
      rcases hk.vector with ⟨_, _, h⟩ | ⟨_, _, h⟩ | ⟨_, _, h⟩ | ⟨_, _, h⟩ <;> cases h
    · subst h'
      refine Or.inr ⟨h, Or.inr ⟨n', Q, ?_⟩⟩
      simp only [Item.prepareStep, Outcome.ok.injEq, Prod.mk.injEq] at hp
      obtain ⟨rfl, -, -⟩ := hp
      simp only [Item.takeStep, Outcome.ok.injEq] at hx
      exact hx.symm

/-- The distance of a constraint is nonnegative. -/
theorem separation_nonneg {vars : List Nat} {N : Nat} {x : Item ℝ} (hg : Gap.Spec.Good ⟨vars, x⟩ N)
    (hu : Iteration.Spec.Usable x) {c : ℝ} {z : Nat → ℝ}
    (hz : Inside x vars.length c z) : 0 ≤ separation x vars.length c z := by
  rcases kind_of hg hu with ⟨m, o, w, rfl⟩ | ⟨d, m, hd, o, w, rfl⟩ | ⟨hk, hw⟩
  · obtain ⟨-, -, -, -, h3⟩ := hg
    obtain ⟨V, d, h1, h2, -⟩ := Lmi.exists_basis (S := 1) h3 transpose_one
    obtain ⟨U, h4, -⟩ := isUnit_iff_exists.1 h1
    have h5 : (Lmi.Spec.slack o c z).PosDef := hz
    have := Gap.separation_nonneg h4 h5
    rw [← h2, Fintype.card_fin] at this
    have e7 : separation (.lmi m o w) vars.length c z =
      (w.W * Lmi.Spec.slack o c z).trace + (w.W⁻¹ * (Lmi.Spec.slack o c z)⁻¹).trace - 2 * m := rfl
    rw [e7]
    linarith
  · obtain ⟨-, -, -, h4, -, h3⟩ := hg
    have hD := Hyper.dim_of_assoc h4
    obtain ⟨V, l, h1, h2, -⟩ := Lmi.exists_basis (S := 1) ((HermLmi.posDef_lmat hD _).1 h3) transpose_one
    obtain ⟨U, h5, -⟩ := isUnit_iff_exists.1 h1
    have h6 : (Hyper.lmat (hyperSlack o c z)).PosDef := (HermLmi.posDef_lmat hD _).1 hz
    have h7 := Gap.separation_nonneg h5 h6
    rw [← h2, Fintype.card_prod, Fintype.card_fin, Fintype.card_fin, Nat.cast_mul] at h7
    have h8 := separation_hermitian (hd := hd) (o := o) h4 h3 vars.length c z
    have hd0 : (0 : ℝ) < d := by
      have : 0 < d := by omega
      exact_mod_cast this
    refine nonneg_of_mul_nonneg_right (a := (d : ℝ)) ?_ hd0
    rw [h8]
    linarith
  · have hB := hk.form
    have key : ∀ r < ConeCentering.Spec.cells x, 0 ≤ ConeCentering.Spec.separation x (ConeCentering.Spec.point x r)
        (cellSlack x vars.length c z r) := fun r hr => by
      rw [ConeCentering.separation_eq]
      refine mul_nonneg (ConeCentering.half_pos _).le (Spin.sep_nonneg hB (hw r hr) ?_)
      rcases hk.vector with ⟨_, _, rfl⟩ | ⟨_, _, rfl⟩ | ⟨_, _, rfl⟩ | ⟨_, _, rfl⟩ <;> exact hz r hr
    rcases hk.vector with ⟨_, _, rfl⟩ | ⟨_, _, rfl⟩ | ⟨_, _, rfl⟩ | ⟨_, _, rfl⟩ <;>
      exact sum_nonneg fun r hr => key r (mem_range.1 hr)

/-! ### All constraints -/

/-- What is kept and gained by an iteration. -/
structure Closer (N : Nat) (g : Nat → ℝ) (c : ℝ) (z : Nat → ℝ) (t B : ℝ) (es es'' : List (Entry ℝ)) : Prop where
  good : ∀ e ∈ es'', Gap.Spec.Good e N
  same : SameProg es es''
  update : SameUpdate es''
  central : Central es'' N g c z
  closer : distance es'' c z ≤ distance es c z - t / 10 * B

theorem program_decrease {v : Env ℝ} (hv : ∀ x, 0 ≤ x → SolveLoop.Spec.SqrtAt v.sqrt x) (hexp : v.exp = Real.exp)
    (htri : Lmi.Spec.TriEigenvalues v.tri) (hso : ∀ n, MatrixExp.Spec.Solves (v.solve n)) {N : Nat}
    {es es' es'' : List (Entry ℝ)} (hg : ∀ e ∈ es, Gap.Spec.Good e N) (hu : ∀ e ∈ es, Iteration.Spec.Usable e.item)
    (hreal : SameUpdate es) {k bs cs A B : ℝ} {b y z : Nat → ℝ}
    (hp : Dual.prepareStep v (k * cs) N y es = .ok (es', A, B))
    (hx : Dual.takeStep v (SolveLoop.stepSize A) es' = .ok es'')
    (hb : ∀ e ∈ es, Short (k * cs) (SolveLoop.stepSize A) (unknowns e y) e.item)
    (hy : Gap.Spec.System v.sqrt N b k bs cs es y) (hz : Central es N (fun u => k * bs * b u) (k * cs) z) :
    Closer N (fun u => k * bs * b u) (k * cs) z (SolveLoop.stepSize A) B es es'' := by
  obtain ⟨ht, ht', -, htA, -⟩ := SolveLoop.C29_step_size A
  set t := SolveLoop.stepSize A with htdef
  obtain ⟨κ, hreal⟩ := (sameUpdate_iff es).1 hreal
  have hall := prepare_take es hp hx
  obtain ⟨hlen, hnth⟩ := Whole.forall₂_nth hall
  obtain ⟨-, β, hB, hβ⟩ := prepareLoop_inv es hp
  rw [zero_add] at hB
  obtain ⟨s₀, s, h0, hs, hy⟩ := hy
  have hp1 := paired (z := fun u => y u - z u) (fun e he => ⟨(hg e he).1, (hg e he).2.1⟩) hy
  have hL : ∀ i < es.length, (es.map Entry.vars).getD i [] = (nth es i).vars := fun i hi => by
    rw [List.getD_eq_getElem?_getD, List.getElem?_map, Whole.nth_get hi]
    rfl
  have hitem : ∀ i < es.length, (nth es'' i).vars = (nth es i).vars ∧
      Decrease κ (nth es i).item (nth es'' i).item (nth es i).vars.length (k * cs) t (unknowns (nth es i) y)
        (unknowns (nth es i) z) (s i) (β i) ∧
      Uses κ (nth es'' i).item ∧
      Gap.Spec.Good ⟨(nth es i).vars, (nth es'' i).item⟩ N ∧ SameData (nth es i).item (nth es'' i).item := by
    intro i hi
    obtain ⟨h1, x', n, b', h2, h3⟩ := hnth i hi
    obtain ⟨x₁, n₁, h4, h5⟩ := hβ i _ (Whole.nth_get hi)
    rw [h2, Outcome.ok.injEq, Prod.mk.injEq, Prod.mk.injEq] at h4
    obtain ⟨rfl, rfl, rfl⟩ := h4
    have hm := Whole.nth_mem hi
    exact ⟨h1, item_decrease (vars := (nth es i).vars) hv hexp htri hso (hg _ hm) (hu _ hm) (hreal _ hm) h2 ht ht' htA h5
      (hb _ hm) h3 (hz.inside _ hm) (h0 i _ (Whole.nth_get hi)) (hs i _ (Whole.nth_get hi))⟩
  have hmem : ∀ e ∈ es'', ∃ i < es.length, e = nth es'' i := fun e he => by
    obtain ⟨i, hi⟩ := List.getElem?_of_mem he
    exact ⟨i, hlen ▸ (List.getElem?_eq_some_iff.1 hi).1, (Whole.nth_of hi).symm⟩
  have hunk : ∀ i < es.length, ∀ u, unknowns (nth es'' i) u = unknowns (nth es i) u := fun i hi u => by
    unfold unknowns
    rw [(hitem i hi).1]
  refine ⟨fun e he => ?_, ?_, (sameUpdate_iff es'').2 ⟨κ, fun e he => ?_⟩, ⟨fun e he => ?_, fun u hu => ?_⟩, ?_⟩
  · obtain ⟨i, hi, rfl⟩ := hmem e he
    have := (hitem i hi).2.2.2.1
    rw [← (hitem i hi).1] at this
    exact this
  · refine List.forall₂_iff_get.2 ⟨hlen.symm, fun i hi hi' => ?_⟩
    have e1 : es.get ⟨i, hi⟩ = nth es i := (Whole.nth_of (List.getElem?_eq_getElem hi)).symm
    have e2 : es''.get ⟨i, hi'⟩ = nth es'' i := (Whole.nth_of (List.getElem?_eq_getElem hi')).symm
    rw [e1, e2]
    exact ⟨(hitem i hi).1, (hitem i hi).2.2.2.2⟩
  · obtain ⟨i, hi, rfl⟩ := hmem e he
    exact (hitem i hi).2.2.1
  · obtain ⟨i, hi, rfl⟩ := hmem e he
    rw [(hitem i hi).1, hunk i hi, (hitem i hi).2.1.inside]
    exact hz.inside _ (Whole.nth_mem hi)
  · rw [hlen, ← hz.stationary u hu]
    refine sum_congr rfl fun i hi => ?_
    have hi := mem_range.1 hi
    rw [(hitem i hi).1, hunk i hi, (hitem i hi).2.1.force]
  · -- the cross terms add up to zero
    have e1 : ∑ i ∈ range es.length, ∑ j ∈ range (nth es i).vars.length,
        (unknowns (nth es i) y j - unknowns (nth es i) z j) * res (s i) (nth es i).vars.length (k * cs)
          (unknowns (nth es i) y) j = ∑ u ∈ range N, (y u - z u) * (k * bs * b u) := by
      rw [← hp1]
      refine sum_congr rfl fun i hi => ?_
      rw [hL i (mem_range.1 hi)]
      rfl
    have e2 : ∑ i ∈ range es.length, ∑ j ∈ range (nth es i).vars.length,
        (unknowns (nth es i) y j - unknowns (nth es i) z j) * force (nth es i).item (nth es i).vars.length (k * cs)
          (unknowns (nth es i) z) j = ∑ u ∈ range N, (y u - z u) * (k * bs * b u) := by
      symm
      rw [sum_congr rfl fun u hu => by rw [← hz.stationary u (mem_range.1 hu), mul_sum], sum_comm]
      refine sum_congr rfl fun i hi => ?_
      obtain ⟨h1, h2, -⟩ := hg _ (Whole.nth_mem (mem_range.1 hi))
      exact sum_ventry h1 h2 (fun u => y u - z u) _
    have hsum := sum_le_sum fun i hi => (hitem i (mem_range.1 hi)).2.1.closer
    rw [sum_sub_distrib, sum_add_distrib, ← mul_sum, ← mul_sum, ← hB] at hsum
    simp only [mul_sub (unknowns _ y _ - unknowns _ z _), sum_sub_distrib] at hsum
    rw [e1, e2, sub_self, mul_zero, add_zero] at hsum
    refine le_trans (le_of_eq ?_) hsum
    unfold distance
    rw [hlen]
    refine sum_congr rfl fun i hi => ?_
    have hi := mem_range.1 hi
    rw [(hitem i hi).1, hunk i hi]

/-- An iteration. -/
theorem iterate_decrease {v : Env ℝ} (hv : ∀ x, 0 ≤ x → SolveLoop.Spec.SqrtAt v.sqrt x) (hexp : v.exp = Real.exp)
    (htri : Lmi.Spec.TriEigenvalues v.tri) (hso : ∀ n, MatrixExp.Spec.Solves (v.solve n)) {p : Iteration.Setup ℝ}
    {duals : List (List Nat)} {x x' : Iteration.State ℝ} (hr : Iteration.Spec.Ready p duals x) (hreal : SameUpdate x.es)
    {k : ℝ} {st : Iteration.Step ℝ} {z : Nat → ℝ} (h : Iteration.iterate v p k x = .ok (some (st, x')))
    (hb : ∀ e ∈ x.es, Short (k * p.cs) (SolveLoop.stepSize st.norm) (unknowns e st.y) e.item)
    (hz : Central x.es p.N (fun u => k * p.bs * p.b u) (k * p.cs) z) :
    Iteration.Spec.Ready p duals x' ∧
      Closer p.N (fun u => k * p.bs * p.b u) (k * p.cs) z (SolveLoop.stepSize st.norm) st.normsqrd x.es x'.es := by
  have he : ∀ x, 0 < v.exp x := fun x => hexp ▸ Real.exp_pos x
  have hu := Centering.unregularized hv he hr h
  obtain ⟨-, h1, h2⟩ := Iteration.iterate_values hr.built (fun e he => (hr.good e he).1) hr.sized h hu
  obtain ⟨-, -, -, -, es', -, -, -, -, -, -, -, h3, h4, -⟩ := Iteration.iterate_ok h
  obtain ⟨h5, h6, -⟩ := Iteration.same_step h3 h4
  have h7 := program_decrease hv hexp htri hso hr.good hr.usable hreal h3 h4 hb (system hr h hu) hz
  exact ⟨⟨Iteration.built_congr hr.built h2, hr.complete, hr.noDuals, h7.good, h6 hr.usable, h1, h5 hr.determined⟩, h7⟩

theorem distance_nonneg {es : List (Entry ℝ)} {N : Nat} (hg : ∀ e ∈ es, Gap.Spec.Good e N)
    (hu : ∀ e ∈ es, Iteration.Spec.Usable e.item) {g : Nat → ℝ} {c : ℝ} {z : Nat → ℝ}
    (hz : Central es N g c z) : 0 ≤ distance es c z := by
  refine sum_nonneg fun i hi => ?_
  have hm := Whole.nth_mem (mem_range.1 hi)
  exact separation_nonneg (hg _ hm) (hu _ hm) (hz.inside _ hm)

/-- The squared norm against the norm that is reported. -/
theorem min_le_step {v : Env ℝ} (hv : ∀ x, 0 ≤ x → SolveLoop.Spec.SqrtAt v.sqrt x) (hexp : v.exp = Real.exp)
    (htri : Lmi.Spec.TriEigenvalues v.tri) {N : Nat} {es es' : List (Entry ℝ)} (hg : ∀ e ∈ es, Gap.Spec.Good e N)
    {c A B : ℝ} {y : Nat → ℝ} (hp : Dual.prepareStep v c N y es = .ok (es', A, B)) :
    0 ≤ B ∧ min 2 B ≤ SolveLoop.stepSize A * B := by
  obtain ⟨h0, -⟩ := program_direction hv hexp htri hg hp
  obtain ⟨ht, ht', h2, -, -⟩ := SolveLoop.C29_step_size A
  refine ⟨h0, ?_⟩
  by_cases hA : A * A ≤ 2
  · rw [h2.2 hA, one_mul]
    exact min_le_right _ _
  · have h3 : A * A ≤ B := by
      rcases Centering.attained es hp with h | ⟨i, e, x', b, h2, h3⟩
      · rw [h] at hA
        norm_num at hA
      · obtain ⟨-, -, β, hβ0, hB, hβ⟩ := program_direction hv hexp htri hg hp
        obtain ⟨x₁, n, h4⟩ := hβ i e h2
        rw [h3, Outcome.ok.injEq, Prod.mk.injEq, Prod.mk.injEq] at h4
        obtain ⟨rfl, rfl, rfl⟩ := h4
        have hi : i < es.length := (List.getElem?_eq_some_iff.1 h2).1
        have h5 := (item_direction (vars := e.vars) hv hexp htri (hg e (List.mem_of_getElem? h2)) h3).2.2 A rfl
        rw [← sq]
        refine h5.trans ?_
        rw [hB]
        exact single_le_sum (f := β) (fun j hj => hβ0 j (mem_range.1 hj)) (mem_range.2 hi)
    have h4 : SolveLoop.stepSize A * (A * A) = 2 := by
      unfold SolveLoop.stepSize
      have h0 : A ≠ 0 := by
        rintro rfl
        norm_num at hA
      have h5 : ¬ 1 < 2 / (A * A) := by
        rw [lt_div_iff₀ (mul_self_pos.2 h0)]
        linarith
      rw [if_neg h0, if_neg h5, div_mul_cancel₀]
      exact (mul_self_pos.2 h0).ne'
    have h5 := mul_le_mul_of_nonneg_left h3 ht.le
    exact (min_le_left _ _).trans (by linarith)

end Verif.MatrixCentering
