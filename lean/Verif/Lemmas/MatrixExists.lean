import Verif.Lemmas.ItemPotential
import Verif.Lemmas.MatrixDecrease
import Verif.Lemmas.ConeWeighted
import Verif.Spec.MatrixExists

/-!
# Lemmas for C98: existence, uniqueness and distance of central points with matrix inequalities
-/

namespace Verif.MatrixCentering

open Finset Verif.Dual
open Whole.Spec (nth)
open Iteration.Spec (Insensitive Determined)
open Spin (slackOf tr_comm tr_slack tr_add tr_smul)
open Spin.Spec (IsForm Interior tr)
open Soc (El)
open ConeCentering (Kind slackAt half half_pos pair_eq order_eq separation_eq)
open ConeCentering.Spec (cells form pair order column affine point inverse Below)
open Spec (Inside force separation distance Central RealCones cellSlack unknowns Point Positive pull product products Strict
  DualAbove SlackAbove hyperSlack hyperInverse HyperPosSemidef)
open Centering (Coords Potential)
open Centering.Spec (gradient gradients curvature)

/-- The constraints other than Hermitian matrix inequalities. -/
def RealItem (x : Item ℝ) (len : Nat) : Prop :=
  (∃ m o w, x = .lmi m o w ∧ o.m = len ∧ Lmi.Spec.Symmetric o ∧ w.W.PosDef) ∨
    (Kind x len ∧ ∀ r < cells x, Interior (form x) (point x r))

/-- Hermitian matrix inequalities. -/
def HermitianItem (x : Item ℝ) (len : Nat) : Prop :=
  ∃ d m hd o w, x = .hermitian d m hd o w ∧ o.mats.length = len ∧ (d = 1 ∨ d = 2 ∨ d = 4) ∧
    HermLmi.Spec.HermitianData o ∧ HermLmi.Spec.PosDef w.W

/-- The constraints considered here. -/
def ConicItem (x : Item ℝ) (len : Nat) : Prop := RealItem x len ∨ HermitianItem x len

theorem conicItem_of {e : Entry ℝ} {N : Nat} (hg : Gap.Spec.Good e N) (hu : Iteration.Spec.Usable e.item) :
    ConicItem e.item e.vars.length := by
  obtain ⟨vars, x⟩ := e
  rcases kind_of hg hu with ⟨m, o, w, rfl⟩ | ⟨d, m, hd, o, w, rfl⟩ | h
  · exact Or.inl (Or.inl ⟨m, o, w, rfl, hg.2.2⟩)
  · exact Or.inr ⟨d, m, hd, o, w, rfl, hg.2.2⟩
  · exact Or.inl (Or.inr h)

/-- The inner product of the inverse of the slack of `z` and the slack of `y`. -/
noncomputable def mixed (x : Item ℝ) (len : Nat) (c : ℝ) (z y : Nat → ℝ) : ℝ :=
  match x with
  | .lmi _ o _ => ((Lmi.Spec.slack o c z)⁻¹ * Lmi.Spec.slack o c y).trace
  | .hermitian _ _ _ o _ => HermLmi.Spec.inner (hyperInverse (hyperSlack o c z)) (hyperSlack o c y)
  | x => ∑ r ∈ range (cells x), pair x (inverse (form x) (cellSlack x len c z r)) (cellSlack x len c y r)

/-- The definitions, for vectors. -/
structure Unfolds (x : Item ℝ) (len : Nat) : Prop where
  inside : ∀ c u, Inside x len c u ↔ ∀ r < cells x, Interior (form x) (slackAt x len c u r)
  force : ∀ c u j, force x len c u j = ∑ r ∈ range (cells x), half x * tr (form x) (column x r j)
    (inverse (form x) (slackAt x len c u r)) + gradient u x j
  separation : ∀ c u, separation x len c u = ∑ r ∈ range (cells x), half x * Spin.sep (form x) (point x r) (slackAt x len c u r)
  positive : ∀ X, Positive x X ↔ ∀ r < cells x, Interior (form x) (X.cell r)
  pull : ∀ X j, pull x X j = ∑ r ∈ range (cells x), half x * tr (form x) (column x r j) (X.cell r)
  product : ∀ c u X, product x len c u X = ∑ r ∈ range (cells x), half x * tr (form x) (X.cell r) (slackAt x len c u r)
  mixed : ∀ c z u, mixed x len c z u = ∑ r ∈ range (cells x), half x * tr (form x)
    (inverse (form x) (slackAt x len c z r)) (slackAt x len c u r)
  dualAbove : ∀ a X, DualAbove a x X ↔ ∀ r < cells x, Below (form x) a (point x r) (X.cell r)
  slackAbove : ∀ a c u, SlackAbove a x len c u ↔ ∀ r < cells x, Below (form x) a (inverse (form x) (point x r))
    (slackAt x len c u r)
  rank : (x.rank : ℝ) = ∑ _r ∈ range (cells x), half x * 2

theorem vector_of {x : Item ℝ} {len : Nat} (hk : Kind x len) : Unfolds x len := by
  constructor <;>
  (try simp only [← cellSlack_eq, ← separation_eq, ← pair_eq, ← order_eq]) <;>
  rcases hk.vector with ⟨o, w, rfl⟩ | ⟨o, w, rfl⟩ | ⟨o, w, rfl⟩ | ⟨n, Q, rfl⟩ <;>
  first
  | exact fun _ _ => Iff.rfl
  | exact fun _ _ _ => rfl
  | exact fun _ _ => rfl
  | exact fun _ => Iff.rfl
  | exact fun _ _ _ => Iff.rfl
  | simp [Item.rank, cells, order]

/-- Products with a difference of slacks. -/
theorem pair_diff {B : (Nat → ℝ) → (Nat → ℝ) → ℝ} (hB : IsForm B) (C : El ℝ) (A : Nat → El ℝ) (len : Nat) (c ω : ℝ)
    (Y : El ℝ) (z y : Nat → ℝ) : ∑ j ∈ range len, (z j - y j) * (ω * tr B (A j) Y) =
      -(ω * (tr B Y (slackOf C A len c z) - tr B Y (slackOf C A len c y))) := by
  rw [tr_comm hB, tr_slack hB, tr_comm hB Y, tr_slack hB]
  have : ∑ j ∈ range len, (z j - y j) * (ω * tr B (A j) Y) =
      ω * (∑ j ∈ range len, z j * tr B (A j) Y - ∑ j ∈ range len, y j * tr B (A j) Y) := by
    rw [← sum_sub_distrib, mul_sum]
    exact sum_congr rfl fun j _ => by ring
  rw [this]
  ring

theorem lmi_pair_diff {m : Nat} (o : Lmi.Con m ℝ) (c : ℝ) (Y : Matrix (Fin m) (Fin m) ℝ) (z y : Nat → ℝ) :
    ∑ j ∈ range o.m, (z j - y j) * (o.A j * Y).trace =
      -((Y * Lmi.Spec.slack o c z).trace - (Y * Lmi.Spec.slack o c y).trace) := by
  have h1 : ∀ u, (Y * Lmi.Spec.slack o c u).trace = c * (Y * o.C).trace - ∑ j ∈ range o.m, u j * (o.A j * Y).trace := by
    intro u
    rw [Centering.lmi_slack_split, Matrix.mul_add, Matrix.trace_add, Centering.lmi_trace_zero, Matrix.mul_smul,
      Matrix.trace_smul, smul_eq_mul, sub_eq_add_neg]
  rw [h1, h1]
  simp only [sub_mul, sum_sub_distrib]
  ring

/-! ### Potentials -/

/-- Displacements of a vector constraint without effect. -/
theorem kind_insensitive {x : Item ℝ} {len : Nat} (hk : Kind x len) {y : Nat → ℝ}
    (h : ∀ r < cells x, (slackAt x len 0 y r).h ^ 2 + form x (slackAt x len 0 y r).t (slackAt x len 0 y r).t = 0)
    (hq : ∀ n Q, x = .cost n Q → ∑ i ∈ range n, y i * ∑ j ∈ range n, Q i j * y j = 0) : Insensitive y x := by
  have hB := hk.form
  have h' : ∀ r < cells x, (slackAt x len 0 y r).h = 0 ∧ form x (slackAt x len 0 y r).t (slackAt x len 0 y r).t = 0 :=
    fun r hr => by
      have h1 := h r hr
      have h2 := sq_nonneg (slackAt x len 0 y r).h
      have h3 := hB.nonneg (slackAt x len 0 y r).t
      exact ⟨pow_eq_zero_iff two_ne_zero |>.1 (by linarith), by linarith⟩
  rcases hk with ⟨o, w, rfl, -, rfl⟩ | ⟨o, w, rfl, -, rfl⟩ | ⟨o, w, rfl, -, -, rfl⟩ | ⟨n, Q, rfl, -⟩
  · intro r hr
    have h1 := (h' r hr).1
    simp only [slackAt, slackOf, zero_mul, zero_sub, neg_eq_zero] at h1
    exact h1
  · obtain ⟨h1, h2⟩ := h' 0 Nat.one_pos
    simp only [slackAt, slackOf, zero_mul, zero_sub, neg_eq_zero] at h1 h2
    intro l hl
    rcases l with _ | l
    · exact h1
    · have h2' : ∑ k ∈ range o.n, (-∑ x ∈ range o.m, o.A (k + 1) x * y x) *
          (-∑ x ∈ range o.m, o.A (k + 1) x * y x) = 0 := h2
      have h3 := (sum_eq_zero_iff_of_nonneg fun i _ => mul_self_nonneg _).1 h2' l (mem_range.2 hl)
      exact neg_eq_zero.1 (mul_self_eq_zero.1 h3)
  · obtain ⟨h1, h2⟩ := h' 0 Nat.one_pos
    simp only [slackAt, slackOf, zero_mul, zero_sub, neg_eq_zero] at h1 h2
    refine ⟨h1, ?_⟩
    have e : ∀ f : Nat → ℝ, (fun l => -f l) = fun l => (-1) * f l := fun f => by funext l; ring
    rw [e, hB.smul, hB.smul_right] at h2
    have h4 : ∀ a : ℝ, -1 * (-1 * a) = 0 → a = 0 := fun a ha => by linarith
    exact h4 _ h2
  · exact hq n Q rfl

theorem real_potential {N : Nat} {ι : Type} {dir : ι → Fin N → ℝ} {L : (Fin N → ℝ) → Nat → ℝ} {h : ι → Nat → ℝ}
    (hL : Coords dir L h) {x : Item ℝ}
    {len : Nat} (hx : RealItem x len) (c : ℝ) {X : Point} (hX : Positive x X) (w : Nat → ℝ) :
    ∃ f q, Potential dir {y | Inside x len c (L y)} f
      (fun u y => ∑ j ∈ range len, h u j * (force x len c (L y) j - (pull x X j + gradient w x j))) q ∧
      ∀ y, q y = 0 → Insensitive (L y) x := by
  rcases hx with ⟨m, o, w', rfl, rfl, ho, -⟩ | ⟨hk, -⟩
  · have hX' : (X.matrix m).PosDef := hX
    have hp := Centering.lmi_potential hL ho c hX'
    refine ⟨_, _, ⟨hp.cont, hp.lower, hp.levels, hp.inner, fun z hz u => ?_, hp.form_cont, hp.form_nonneg, hp.form_smul⟩,
      fun y hy => ?_⟩
    · refine (hp.deriv z hz u).congr_deriv (sum_congr rfl fun j _ => ?_)
      simp only [Spec.force, Spec.pull, gradient, add_zero]
    · have h1 := (Centering.trace_self_nonneg (Centering.lmi_symm ho 0 (L y))).2 hy
      have h2 : Lmi.Spec.slack o 0 (L y) = -∑ j ∈ range o.m, L y j • o.A j := by
        unfold Lmi.Spec.slack
        rw [zero_smul, zero_sub]
      rw [h2, neg_eq_zero] at h1
      exact h1
  · have hv := vector_of hk
    have hB := hk.form
    have hX' := (hv.positive X).1 hX
    have hp := Potential.sum (range (cells x)) fun r hr => Centering.cell_potential (affine x r) (column x r) len hL hB
      (half_pos x) c (hX' r (mem_range.1 hr))
    have hD : {y | ∀ r ∈ range (cells x), y ∈ {y | Interior (form x) (slackOf (affine x r) (column x r) len c (L y))}} =
        {y | Inside x len c (L y)} := by
      ext y
      simp only [Set.mem_ofPred_eq, mem_range, hv.inside]
      rfl
    have hg : ∀ u y, ∑ r ∈ range (cells x), ∑ j ∈ range len, h u j * (half x * tr (form x) (column x r j)
        (inverse (form x) (slackOf (affine x r) (column x r) len c (L y))) -
        half x * tr (form x) (column x r j) (X.cell r)) =
        ∑ j ∈ range len, h u j * ((force x len c (L y) j - gradient (L y) x j) - pull x X j) := by
      intro u y
      rw [sum_comm]
      refine sum_congr rfl fun j _ => ?_
      rw [hv.force, hv.pull, add_sub_cancel_right, ← sum_sub_distrib, mul_sum]
      rfl
    simp only [hg] at hp
    rw [hD] at hp
    by_cases hcost : ∃ n Q, x = .cost n Q
    · obtain ⟨n, Q, rfl⟩ := hcost
      obtain ⟨rfl, hQ⟩ : n = len ∧ QuadCone.Spec.Psd n Q := by
        rcases hk with ⟨_, _, h, _⟩ | ⟨_, _, h, _⟩ | ⟨_, _, h, _⟩ | ⟨_, _, h, h1, h2⟩
        · cases h
        · cases h
        · cases h
        · cases h
          exact ⟨h1, h2⟩
      have hc := Centering.cost_potential hL hQ w
      refine ⟨_, _, ⟨hc.cont.mono (Set.subset_univ _), ?_, fun V => ?_, hp.inner, fun z hz u => ?_, hc.form_cont,
        hc.form_nonneg, hc.form_smul⟩, fun y hy => hy⟩
      · obtain ⟨b, hb⟩ := hc.lower
        exact ⟨b, fun y _ => hb y trivial⟩
      · obtain ⟨C, -, h2, M, h3⟩ := hc.levels V
        refine ⟨Set.univ, fun y _ => (hv.inside c (L y)).2 fun r hr => absurd hr (Nat.not_lt_zero r), isClosed_univ, M,
          fun y _ hV => ⟨trivial, (h3 y trivial hV).2⟩⟩
      · refine (hc.deriv z trivial u).congr_deriv (sum_congr rfl fun j _ => ?_)
        simp [Spec.force, Spec.pull, gradient, cells]
    · have hgr : ∀ u, gradient u x = fun _ => 0 := fun u => by
        rcases hk.vector with ⟨o, w, rfl⟩ | ⟨o, w, rfl⟩ | ⟨o, w, rfl⟩ | ⟨n, Q, rfl⟩
        · rfl
        · rfl
        · rfl
        · exact absurd ⟨n, Q, rfl⟩ hcost
      refine ⟨_, _, ⟨hp.cont, hp.lower, hp.levels, hp.inner, fun z hz u => ?_, hp.form_cont, hp.form_nonneg, hp.form_smul⟩,
        fun y hy => ?_⟩
      · refine (hp.deriv z hz u).congr_deriv (sum_congr rfl fun j _ => ?_)
        simp only [hgr]
        ring
      · refine kind_insensitive hk (fun r hr => ?_) fun n Q hx => absurd ⟨n, Q, hx⟩ hcost
        exact (sum_eq_zero_iff_of_nonneg fun r _ => add_nonneg (sq_nonneg _) (hB.nonneg _)).1 hy r (mem_range.2 hr)

theorem real_congr {x : Item ℝ} {len : Nat} (hx : RealItem x len) (c : ℝ) {y z : Nat → ℝ} (h : ∀ j < len, y j = z j) :
    Inside x len c y ↔ Inside x len c z := by
  rcases hx with ⟨m, o, w', rfl, rfl, -⟩ | ⟨hk, -⟩
  · have e : Lmi.Spec.slack o c y = Lmi.Spec.slack o c z := by
      unfold Lmi.Spec.slack
      congr 1
      exact sum_congr rfl fun j hj => by rw [h j (mem_range.1 hj)]
    change (Lmi.Spec.slack o c y).PosDef ↔ (Lmi.Spec.slack o c z).PosDef
    rw [e]
  · have hv := vector_of hk
    have e : ∀ r, slackAt x len c y r = slackAt x len c z r := fun r => by
      rw [← cellSlack_eq, ← cellSlack_eq]
      unfold cellSlack
      congr 1
      · congr 1
        exact sum_congr rfl fun j hj => by rw [h j (mem_range.1 hj)]
      · funext l
        congr 1
        exact sum_congr rfl fun j hj => by rw [h j (mem_range.1 hj)]
    simp only [hv.inside, e]

/-! ### Monotony -/

theorem real_mono {x : Item ℝ} {len : Nat} (hx : RealItem x len) {c : ℝ} {z z' : Nat → ℝ} (hz : Inside x len c z)
    (hz' : Inside x len c z') :
    0 ≤ ∑ j ∈ range len, (z' j - z j) * (force x len c z' j - force x len c z j) ∧
    (∑ j ∈ range len, (z' j - z j) * (force x len c z' j - force x len c z j) = 0 →
      Insensitive (fun j => z' j - z j) x) := by
  rcases hx with ⟨m, o, w', rfl, rfl, ho, -⟩ | ⟨hk, -⟩
  · have g1 : (Lmi.Spec.slack o c z).PosDef := hz
    have g2 : (Lmi.Spec.slack o c z').PosDef := hz'
    obtain ⟨h1, h2⟩ := LogDet.inverse_mono g2 g1
    have e : ∑ j ∈ range o.m, (z' j - z j) * (force (.lmi m o w') o.m c z' j - force (.lmi m o w') o.m c z j) =
        -(((Lmi.Spec.slack o c z')⁻¹ - (Lmi.Spec.slack o c z)⁻¹) * (Lmi.Spec.slack o c z' - Lmi.Spec.slack o c z)).trace := by
      simp only [Spec.force, mul_sub, sum_sub_distrib]
      rw [lmi_pair_diff o c, lmi_pair_diff o c]
      rw [Matrix.sub_mul, Matrix.sub_mul, Matrix.trace_sub, Matrix.trace_sub, Matrix.trace_sub]
      ring
    rw [e]
    refine ⟨h1, fun h0 => ?_⟩
    have h3 := h2 (neg_eq_zero.1 h0)
    have h4 := Centering.lmi_slack_add o c 1 z fun j => z' j - z j
    simp only [one_mul, add_sub_cancel, one_smul] at h4
    have h5 : Lmi.Spec.slack o 0 (fun j => z' j - z j) = 0 := by
      have h6 : (fun j => z' j) = z' := rfl
      rw [h6, h3, left_eq_add] at h4
      exact h4
    unfold Lmi.Spec.slack at h5
    rw [zero_smul, zero_sub, neg_eq_zero] at h5
    exact h5
  · have hv := vector_of hk
    have hB := hk.form
    have g1 := (hv.inside c z).1 hz
    have g2 := (hv.inside c z').1 hz'
    have e : ∑ j ∈ range len, (z' j - z j) * (force x len c z' j - force x len c z j) =
        ∑ r ∈ range (cells x), -(half x * Spin.cross (form x) (inverse (form x) (slackAt x len c z' r))
          (inverse (form x) (slackAt x len c z r)) (slackAt x len c z' r) (slackAt x len c z r)) +
        ∑ j ∈ range len, (z' j - z j) * (gradient z' x j - gradient z x j) := by
      have e1 : ∀ j, (z' j - z j) * (force x len c z' j - force x len c z j) =
          (∑ r ∈ range (cells x), (z' j - z j) * (half x * tr (form x) (column x r j)
            (inverse (form x) (slackAt x len c z' r)))) -
          (∑ r ∈ range (cells x), (z' j - z j) * (half x * tr (form x) (column x r j)
            (inverse (form x) (slackAt x len c z r)))) + (z' j - z j) * (gradient z' x j - gradient z x j) := by
        intro j
        rw [hv.force, hv.force]
        simp only [← mul_sum]
        ring
      simp only [e1, sum_add_distrib, sum_sub_distrib]
      rw [sum_comm, sum_comm (s := range len) (t := range (cells x)), ← sum_sub_distrib]
      congr 1
      refine sum_congr rfl fun r _ => ?_
      rw [pair_diff hB (affine x r) (column x r) len c, pair_diff hB (affine x r) (column x r) len c]
      unfold Spin.cross slackAt
      ring
    have k1 : ∀ r ∈ range (cells x), 0 ≤ -(half x * Spin.cross (form x) (inverse (form x) (slackAt x len c z' r))
        (inverse (form x) (slackAt x len c z r)) (slackAt x len c z' r) (slackAt x len c z r)) := fun r hr => by
      have := (ConeCentering.cross_inverse hB (g2 r (mem_range.1 hr)) (g1 r (mem_range.1 hr))).1
      exact neg_nonneg.2 (mul_nonpos_of_nonneg_of_nonpos (half_pos x).le this)
    have k2 : 0 ≤ ∑ j ∈ range len, (z' j - z j) * (gradient z' x j - gradient z x j) ∧
        ∀ n Q, x = .cost n Q → ∑ i ∈ range n, (z' i - z i) * ∑ j ∈ range n, Q i j * (z' j - z j) =
          ∑ j ∈ range len, (z' j - z j) * (gradient z' x j - gradient z x j) := by
      rcases hk with ⟨o, w, rfl, -⟩ | ⟨o, w, rfl, -⟩ | ⟨o, w, rfl, -⟩ | ⟨n, Q, rfl, rfl, hQ⟩
      · exact ⟨by simp [gradient], fun _ _ h => by cases h⟩
      · exact ⟨by simp [gradient], fun _ _ h => by cases h⟩
      · exact ⟨by simp [gradient], fun _ _ h => by cases h⟩
      · have e2 : ∑ i ∈ range n, (z' i - z i) * ∑ j ∈ range n, Q i j * (z' j - z j) =
            ∑ j ∈ range n, (z' j - z j) * (gradient z' (.cost n Q) j - gradient z (.cost n Q) j) := by
          refine sum_congr rfl fun j _ => ?_
          simp only [gradient]
          rw [← sum_sub_distrib]
          congr 1
          exact sum_congr rfl fun l _ => by ring
        refine ⟨e2 ▸ hQ.2 fun j => z' j - z j, fun n' Q' h => ?_⟩
        cases h
        exact e2
    rw [e]
    refine ⟨add_nonneg (sum_nonneg k1) k2.1, fun h0 => ?_⟩
    have k3 := sum_nonneg k1
    have k4 := k2.1
    refine kind_insensitive hk (fun r hr => ?_) fun n Q hx => (k2.2 n Q hx).trans (by linarith)
    have h1 := (sum_eq_zero_iff_of_nonneg k1).1 (by linarith) r (mem_range.2 hr)
    have h2 := (ConeCentering.cross_inverse hB (g2 r hr) (g1 r hr)).2
      ((mul_eq_zero.1 (neg_eq_zero.1 h1)).resolve_left (half_pos x).ne')
    have h5 : slackAt x len c z' r = Spin.Spec.add (slackAt x len c z r)
        (Spin.Spec.smul 1 (slackAt x len 0 (fun j => z' j - z j) r)) := by
      unfold slackAt
      rw [← Centering.slackOf_add]
      congr 1
      funext u
      ring
    have h6 : (slackAt x len 0 (fun j => z' j - z j) r).t =
        fun l => (slackAt x len c z' r).t l + -1 * (slackAt x len c z r).t l := by
      funext l
      rw [h5]
      simp only [Spin.Spec.add, Spin.Spec.smul]
      ring
    have h7 := h2.1
    rw [h5] at h7
    simp only [Spin.Spec.add, Spin.Spec.smul] at h7
    have h8 : (slackAt x len 0 (fun j => z' j - z j) r).h = 0 := by linarith
    rw [h6, h2.2, h8]
    norm_num

/-! ### Products with interior points -/

theorem real_sum {x : Item ℝ} {len : Nat} (hx : RealItem x len) {c : ℝ} {z y : Nat → ℝ} (hz : Inside x len c z)
    (X : Point) (w : Nat → ℝ) :
    ∑ j ∈ range len, (z j - y j) * (force x len c z j - (pull x X j + gradient w x j)) =
      product x len c z X + mixed x len c z y - x.rank - product x len c y X +
        ∑ j ∈ range len, (z j - y j) * (gradient z x j - gradient w x j) := by
  rcases hx with ⟨m, o, w', rfl, rfl, ho, -⟩ | ⟨hk, -⟩
  · have g1 : (Lmi.Spec.slack o c z).PosDef := hz
    have e0 : ((Lmi.Spec.slack o c z)⁻¹ * Lmi.Spec.slack o c z).trace = m := by
      rw [Matrix.nonsing_inv_mul _ ((Matrix.isUnit_iff_isUnit_det _).1 g1.isUnit), Matrix.trace_one, Fintype.card_fin]
    simp only [Spec.force, Spec.pull, Spec.product, mixed, gradient, add_zero, sub_zero, mul_sub, mul_zero, sum_const_zero,
      sum_sub_distrib, Item.rank]
    rw [lmi_pair_diff o c, lmi_pair_diff o c, e0]
    ring
  · have hv := vector_of hk
    have hB := hk.form
    have g1 := (hv.inside c z).1 hz
    have e1 : ∀ j, (z j - y j) * (force x len c z j - (pull x X j + gradient w x j)) =
        (∑ r ∈ range (cells x), (z j - y j) * (half x * tr (form x) (column x r j)
          (inverse (form x) (slackAt x len c z r)))) -
        (∑ r ∈ range (cells x), (z j - y j) * (half x * tr (form x) (column x r j) (X.cell r))) +
        (z j - y j) * (gradient z x j - gradient w x j) := by
      intro j
      rw [hv.force, hv.pull]
      simp only [← mul_sum]
      ring
    simp only [e1, sum_add_distrib, sum_sub_distrib]
    congr 1
    rw [sum_comm, sum_comm (s := range len) (t := range (cells x)), ← sum_sub_distrib, hv.product, hv.product, hv.mixed,
      hv.rank, ← sum_add_distrib, ← sum_sub_distrib, ← sum_sub_distrib]
    refine sum_congr rfl fun r hr => ?_
    have e2 := Spin.tr_inverse_self hB (g1 r (mem_range.1 hr))
    rw [pair_diff hB (affine x r) (column x r) len c, pair_diff hB (affine x r) (column x r) len c]
    change -(half x * (tr (form x) (inverse (form x) (slackAt x len c z r)) (slackAt x len c z r) -
      tr (form x) (inverse (form x) (slackAt x len c z r)) (slackAt x len c y r))) -
      -(half x * (tr (form x) (X.cell r) (slackAt x len c z r) - tr (form x) (X.cell r) (slackAt x len c y r))) = _
    rw [e2]
    ring

theorem real_separation {x : Item ℝ} {len : Nat} (hx : RealItem x len) {c : ℝ} {z y : Nat → ℝ} (hz : Inside x len c z)
    (hy : Inside x len c y) {X : Point} (hX : Positive x X) {μ ν : ℝ} (hμ : 0 < μ) (hν : 0 < ν) (h1 : DualAbove μ x X)
    (h2 : SlackAbove ν x len c y) :
    separation x len c z ≤ (product x len c z X + mixed x len c z y) * (1 / μ + 1 / ν) - 2 * x.rank := by
  have fin : ∀ {P P' a b : ℝ}, 0 ≤ P → 0 ≤ P' → μ * a ≤ P → ν * b ≤ P' → a + b ≤ (P + P') * (1 / μ + 1 / ν) := by
    intro P P' a b p1 p2 p3 p4
    have k1 : a ≤ P * (1 / μ) := by
      rw [mul_one_div, le_div_iff₀ hμ, mul_comm]
      exact p3
    have k2 : b ≤ P' * (1 / ν) := by
      rw [mul_one_div, le_div_iff₀ hν, mul_comm]
      exact p4
    have k3 : 0 ≤ P * (1 / ν) := by positivity
    have k4 : 0 ≤ P' * (1 / μ) := by positivity
    linarith
  rcases hx with ⟨m, o, w', rfl, rfl, ho, hW⟩ | ⟨hk, hw⟩
  · have g1 : (Lmi.Spec.slack o c z).PosDef := hz
    have g2 : (Lmi.Spec.slack o c y).PosDef := hy
    have g3 : (X.matrix m).PosDef := hX
    have g4 : (X.matrix m - μ • w'.W).PosSemidef := h1
    have g5 : (Lmi.Spec.slack o c y - ν • w'.W⁻¹).PosSemidef := h2
    have f1 := LogDet.trace_mul_nonneg g4 g1
    have f2 := LogDet.trace_mul_nonneg g5 g1.inv
    have f3 := LogDet.trace_mul_nonneg g3.posSemidef g1
    have f4 := LogDet.trace_mul_nonneg g2.posSemidef g1.inv
    rw [Matrix.sub_mul, Matrix.trace_sub, Matrix.smul_mul, Matrix.trace_smul, smul_eq_mul] at f1 f2
    have e6 : separation (.lmi m o w') o.m c z =
      (w'.W * Lmi.Spec.slack o c z).trace + (w'.W⁻¹ * (Lmi.Spec.slack o c z)⁻¹).trace - 2 * m := rfl
    have e7 : mixed (.lmi m o w') o.m c z y = (Lmi.Spec.slack o c y * (Lmi.Spec.slack o c z)⁻¹).trace := by
      rw [Matrix.trace_mul_comm]
      rfl
    have e8 : product (.lmi m o w') o.m c z X = (X.matrix m * Lmi.Spec.slack o c z).trace := rfl
    rw [e6, e7, e8]
    simp only [Item.rank]
    exact sub_le_sub_right (fin f3 f4 (by linarith) (by linarith)) _
  · have hv := vector_of hk
    have hB := hk.form
    have g1 := (hv.inside c z).1 hz
    have g2 := (hv.inside c y).1 hy
    have g3 := (hv.positive X).1 hX
    have g4 := (hv.dualAbove μ X).1 h1
    have g5 := (hv.slackAbove ν c y).1 h2
    rw [hv.separation, hv.product, hv.mixed, hv.rank, ← sum_add_distrib, sum_mul, mul_sum, ← sum_sub_distrib]
    refine sum_le_sum fun r hr => ?_
    have hr := mem_range.1 hr
    have f1 := ConeCentering.below_tr hB (g4 r hr) (g1 r hr)
    have f2 := ConeCentering.below_tr hB (g5 r hr) (ConeCentering.inverse_interior hB (g1 r hr))
    have f3 := Spin.tr_pos hB ⟨(g3 r hr).1.le, (g3 r hr).2.le⟩ (g3 r hr).1 (g1 r hr)
    have f4 := Spin.tr_pos hB ⟨(g2 r hr).1.le, (g2 r hr).2.le⟩ (g2 r hr).1 (ConeCentering.inverse_interior hB (g1 r hr))
    rw [tr_comm hB (slackAt x len c y r)] at f2 f4
    have key := mul_le_mul_of_nonneg_left (fin f3.le f4.le f1 f2) (half_pos x).le
    unfold Spin.sep
    linarith

/-! ### Scaling -/

/-- A multiple of a dual point. -/
noncomputable def Point.smul (a : ℝ) (X : Point) : Point := ⟨fun r => Spin.Spec.smul a (X.cell r), fun m => a • X.matrix m,
  fun d m => Hyper.scalarMultiply (X.hyper d m) a⟩

theorem real_scale {x : Item ℝ} {len : Nat} (hx : RealItem x len) {a : ℝ} (ha : 0 < a) :
    (∀ c y, Inside x len c y → Inside x len (a * c) fun j => a * y j) ∧ (∀ X, Positive x X → Positive x (Point.smul a X)) ∧
    (∀ X j, pull x (Point.smul a X) j = a * pull x X j) ∧
    (∀ b c y X, product x len (b * c) (fun j => b * y j) (Point.smul a X) = a * b * product x len c y X) ∧
    (∀ μ X, DualAbove μ x X → DualAbove (a * μ) x (Point.smul a X)) ∧
    (∀ ν c y, SlackAbove ν x len c y → SlackAbove (a * ν) x len (a * c) fun j => a * y j) ∧
    ∀ y j, gradient (fun j => a * y j) x j = a * gradient y x j := by
  have hgr : ∀ y j, gradient (fun j => a * y j) x j = a * gradient y x j := fun y j => by
    cases x <;> simp only [gradient, mul_zero]
    rw [mul_sum]
    exact sum_congr rfl fun l _ => by ring
  rcases hx with ⟨m, o, w', rfl, rfl, ho, hW⟩ | ⟨hk, hw⟩
  · refine ⟨fun c y h => ?_, fun X h => ?_, fun X j => ?_, fun b c y X => ?_, fun μ X h => ?_, fun ν c y h => ?_, hgr⟩
    · have h' : (Lmi.Spec.slack o c y).PosDef := h
      change (Lmi.Spec.slack o (a * c) fun j => a * y j).PosDef
      rw [Centering.lmi_slack_smul]
      exact h'.smul ha
    · have h' : (X.matrix m).PosDef := h
      exact h'.smul ha
    · change (o.A j * a • X.matrix m).trace = a * (o.A j * X.matrix m).trace
      rw [Matrix.mul_smul, Matrix.trace_smul, smul_eq_mul]
    · change (a • X.matrix m * Lmi.Spec.slack o (b * c) fun j => b * y j).trace = a * b * (X.matrix m * Lmi.Spec.slack o c y).trace
      rw [Centering.lmi_slack_smul, Matrix.smul_mul, Matrix.mul_smul, Matrix.trace_smul, Matrix.trace_smul, smul_eq_mul,
        smul_eq_mul, mul_assoc]
    · have h' : (X.matrix m - μ • w'.W).PosSemidef := h
      change (a • X.matrix m - (a * μ) • w'.W).PosSemidef
      rw [← smul_smul, ← smul_sub]
      exact h'.smul ha.le
    · have h' : (Lmi.Spec.slack o c y - ν • w'.W⁻¹).PosSemidef := h
      change ((Lmi.Spec.slack o (a * c) fun j => a * y j) - (a * ν) • w'.W⁻¹).PosSemidef
      rw [Centering.lmi_slack_smul, ← smul_smul, ← smul_sub]
      exact h'.smul ha.le
  · have hv := vector_of hk
    have hB := hk.form
    have hsl : ∀ b c y r, slackAt x len (b * c) (fun j => b * y j) r = Spin.Spec.smul b (slackAt x len c y r) :=
      fun b c y r => Centering.slackOf_smul _ _ _ _ _ _
    have hbel : ∀ μ s t, Below (form x) μ s t → Below (form x) (a * μ) s (Spin.Spec.smul a t) := fun μ s t h => by
      have := Spin.cone_scale hB h ha.le
      unfold Below
      simp only [Spin.Spec.smul, mul_sub, ← mul_assoc] at this ⊢
      exact this
    refine ⟨fun c y h => ?_, fun X h => ?_, fun X j => ?_, fun b c y X => ?_, fun μ X h => ?_, fun ν c y h => ?_, hgr⟩
    · rw [hv.inside] at h ⊢
      intro r hr
      rw [hsl]
      exact ConeCentering.interior_smul hB ha (h r hr)
    · rw [hv.positive] at h ⊢
      exact fun r hr => ConeCentering.interior_smul hB ha (h r hr)
    · rw [hv.pull, hv.pull, mul_sum]
      refine sum_congr rfl fun r _ => ?_
      change half x * tr (form x) (column x r j) (Spin.Spec.smul a (X.cell r)) = _
      rw [tr_comm hB, tr_smul hB, tr_comm hB]
      ring
    · rw [hv.product, hv.product, mul_sum]
      refine sum_congr rfl fun r _ => ?_
      change half x * tr (form x) (Spin.Spec.smul a (X.cell r)) _ = _
      rw [hsl, tr_smul hB, tr_comm hB, tr_smul hB, tr_comm hB]
      ring
    · rw [hv.dualAbove] at h ⊢
      exact fun r hr => hbel _ _ _ (h r hr)
    · rw [hv.slackAbove] at h ⊢
      intro r hr
      rw [hsl]
      exact hbel _ _ _ (h r hr)

/-! ### Hermitian matrix inequalities as real ones -/

/-- A constraint behaves like a real one, up to the factor `δ`. -/
structure Embeds (x x' : Item ℝ) (len : Nat) (δ : ℝ) (E : Point → Point) : Prop where
  pos : 0 < δ
  real : RealItem x' len
  inside : ∀ c y, Inside x len c y ↔ Inside x' len c y
  force : ∀ c y j, δ * force x len c y j = Spec.force x' len c y j
  separation : ∀ c y, δ * separation x len c y = Spec.separation x' len c y
  positive : ∀ X, Positive x X ↔ Positive x' (E X)
  pull : ∀ X j, δ * pull x X j = Spec.pull x' (E X) j
  product : ∀ c y X, δ * product x len c y X = Spec.product x' len c y (E X)
  mixed : ∀ c z y, δ * mixed x len c z y = MatrixCentering.mixed x' len c z y
  dualAbove : ∀ a X, DualAbove a x X ↔ DualAbove a x' (E X)
  slackAbove : ∀ a c y, SlackAbove a x len c y ↔ SlackAbove a x' len c y
  rank : δ * x.rank = x'.rank
  smul : ∀ a X, E (Point.smul a X) = Point.smul a (E X)
  gradient : ∀ y j, gradient y x j = 0 ∧ Centering.Spec.gradient y x' j = 0
  insensitive : ∀ y, Insensitive y x' → Insensitive y x

open Hyper HermLmi in
theorem embeds_of {x : Item ℝ} {len : Nat} (hx : HermitianItem x len) : ∃ x' δ E, Embeds x x' len δ E := by
  obtain ⟨d, m, hd, o, w, rfl, rfl, h4, ho, hW⟩ := hx
  have hD := dim_of_assoc h4
  set A : Nat → Matrix (Fin (d * m)) (Fin (d * m)) ℝ := fun j => renumber (lmat (o.mats.getD j fun _ => 0)) with hA
  set o' : Lmi.Con (d * m) ℝ := ⟨o.mats.length, A, renumber (lmat (o.affine.getD fun _ => 0))⟩ with ho'
  set w' : Lmi.Ws (d * m) ℝ := ⟨renumber (lmat w.W), 0⟩ with hw'
  set E : Point → Point := fun X => ⟨X.cell, fun k => if h : d * m = k then h ▸ renumber (lmat (X.hyper d m)) else 0,
    X.hyper⟩ with hE
  have hEm : ∀ X, (E X).matrix (d * m) = renumber (lmat (X.hyper d m)) := fun X => by simp [hE]
  have hsl : ∀ c y, Lmi.Spec.slack o' c y = renumber (lmat (hyperSlack o c y)) := fun c y => by
    unfold hyperSlack
    rw [Gap.lmat_slack]
    ext i j
    simp only [Lmi.Spec.slack, ho', hA, renumber, Matrix.sub_apply, Matrix.smul_apply, Matrix.sum_apply,
      Matrix.submatrix_apply]
  have htr : ∀ {X : HMat d m ℝ}, Hyper.Spec.Hermitian X → ∀ Y : HMat d m ℝ,
      (d : ℝ) * HermLmi.Spec.inner X Y = (renumber (lmat X) * renumber (lmat Y)).trace := fun hX Y => by
    rw [Gap.inner_lmat hD hX Y h4, renumber_mul, renumber_trace]
  have hinv : ∀ X : HMat d m ℝ, renumber (lmat (hyperInverse X)) = (renumber (lmat X))⁻¹ := fun X => by
    rw [lmat_inverse h4, renumber_inv]
  have hpd : ∀ X : HMat d m ℝ, HermLmi.Spec.PosDef X ↔ (renumber (lmat X)).PosDef := fun X => by
    rw [posDef_lmat hD, renumber_posDef]
  have hps : ∀ (X Y : HMat d m ℝ) (a : ℝ), HyperPosSemidef (fun k => X k - a • Y k) ↔
      (renumber (lmat X) - a • renumber (lmat Y)).PosSemidef := fun X Y a => by
    rw [hyperPosSemidef_lmat h4, renumber_sub_smul, renumber_posSemidef, lmat_sub_smul]
  have hsym : ∀ {X : HMat d m ℝ}, Hyper.Spec.Hermitian X → (renumber (lmat X)).transpose = renumber (lmat X) := fun hX => by
    rw [renumber_transpose, (hermitian_lmat hD _).1 hX]
  have haff : Hyper.Spec.Hermitian (o.affine.getD fun _ => 0) := by
    cases hC : o.affine with
    | some C => exact ho.2 C hC
    | none => exact fun i r s => by simp
  refine ⟨.lmi (d * m) o' w', d, E, ?_, Or.inl ⟨_, _, _, rfl, rfl, ⟨fun i _ => hsym (hermitian_mats ho i), hsym haff⟩,
    (hpd _).1 hW⟩, fun c y => ?_, fun c y j => ?_, fun c y => ?_, fun X => ?_, fun X j => ?_, fun c y X => ?_,
    fun c z y => ?_, fun a X => ?_, fun a c y => ?_, ?_, fun a X => ?_, fun y j => ⟨rfl, rfl⟩, fun y hy c => ?_⟩
  · have : 0 < d := by omega
    exact_mod_cast this
  · change HermLmi.Spec.PosDef (hyperSlack o c y) ↔ (Lmi.Spec.slack o' c y).PosDef
    rw [hsl, hpd]
  · change (d : ℝ) * HermLmi.Spec.inner (o.mats.getD j fun _ => 0) (hyperInverse (hyperSlack o c y)) =
      (A j * (Lmi.Spec.slack o' c y)⁻¹).trace
    rw [htr (hermitian_mats ho j), hinv, hsl]
  · have h := separation_hermitian (hd := hd) (o := o) h4 hW o.mats.length c y
    rw [h]
    change _ = (w'.W * Lmi.Spec.slack o' c y).trace + (w'.W⁻¹ * (Lmi.Spec.slack o' c y)⁻¹).trace - 2 * ((d * m : Nat) : ℝ)
    rw [hsl, renumber_inv, renumber_inv, renumber_mul, renumber_mul, renumber_trace, renumber_trace, Nat.cast_mul]
  · change HermLmi.Spec.PosDef (X.hyper d m) ↔ ((E X).matrix (d * m)).PosDef
    rw [hEm, hpd]
  · change (d : ℝ) * HermLmi.Spec.inner (o.mats.getD j fun _ => 0) (X.hyper d m) = (A j * (E X).matrix (d * m)).trace
    rw [htr (hermitian_mats ho j), hEm]
  · change (d : ℝ) * HermLmi.Spec.inner (X.hyper d m) (hyperSlack o c y) = ((E X).matrix (d * m) * Lmi.Spec.slack o' c y).trace
    rw [inner_symm, htr (hermitian_hyperSlack ho c y), hEm, hsl, Matrix.trace_mul_comm]
  · change (d : ℝ) * HermLmi.Spec.inner (hyperInverse (hyperSlack o c z)) (hyperSlack o c y) =
      ((Lmi.Spec.slack o' c z)⁻¹ * Lmi.Spec.slack o' c y).trace
    rw [htr (hermitian_inverse h4 (hermitian_hyperSlack ho c z)), hinv, hsl, hsl]
  · change HyperPosSemidef (fun k => X.hyper d m k - a • w.W k) ↔ ((E X).matrix (d * m) - a • w'.W).PosSemidef
    rw [hps, hEm]
  · change HyperPosSemidef (fun k => hyperSlack o c y k - a • hyperInverse w.W k) ↔
      (Lmi.Spec.slack o' c y - a • w'.W⁻¹).PosSemidef
    rw [hps, hinv, hsl]
  · simp [Item.rank]
  · have e : ∀ k, (if h : d * m = k then h ▸ renumber (lmat (scalarMultiply (X.hyper d m) a)) else 0 :
        Matrix (Fin k) (Fin k) ℝ) = a • (if h : d * m = k then h ▸ renumber (lmat (X.hyper d m)) else 0) := by
      intro k
      by_cases h : d * m = k
      · subst h
        simp only [dif_pos]
        rw [lmat_scalar]
        rfl
      · simp only [dif_neg h, smul_zero]
    simp only [hE, Point.smul, Spec.Point.mk.injEq]
    exact ⟨trivial, funext e, trivial⟩
  · have h1 : ∑ j ∈ range o.mats.length, y j • A j = 0 := hy
    have h2 : lmat (fun c => ∑ j ∈ range o.mats.length, y j • (o.mats.getD j fun _ => 0 : HMat d m ℝ) c) =
        lmat (fun _ => 0 : HMat d m ℝ) := by
      refine renumber_injective (Eq.trans ?_ (h1.trans ?_))
      · ext i j
        simp only [renumber, lmat, Matrix.submatrix_apply, Matrix.sum_apply, Matrix.smul_apply, hA, mul_sum]
        rw [sum_comm]
        simp only [smul_eq_mul, mul_sum]
        exact sum_congr rfl fun _ _ => sum_congr rfl fun _ _ => by ring
      · ext i j
        simp [renumber, lmat]
    exact congrFun (lmat_injective hD h2) c

theorem potential_scale {N : Nat} {ι : Type} {dir : ι → Fin N → ℝ} {D : Set (Fin N → ℝ)} {f : (Fin N → ℝ) → ℝ}
    {g : ι → (Fin N → ℝ) → ℝ}
    {q : (Fin N → ℝ) → ℝ} (h : Potential dir D f g q) {a : ℝ} (ha : 0 < a) :
    Potential dir D (fun y => a * f y) (fun u y => a * g u y) q := by
  refine ⟨continuousOn_const.mul h.cont, ?_, fun V => ?_, h.inner, fun z hz u => (h.deriv z hz u).const_mul a, h.form_cont,
    h.form_nonneg, h.form_smul⟩
  · obtain ⟨m, hm⟩ := h.lower
    exact ⟨a * m, fun y hy => mul_le_mul_of_nonneg_left (hm y hy) ha.le⟩
  · obtain ⟨C, h1, h2, M, h3⟩ := h.levels (V / a)
    exact ⟨C, h1, h2, M, fun y hy hV => h3 y hy ((le_div_iff₀' ha).2 hV)⟩

theorem item_potential {N : Nat} {ι : Type} {dir : ι → Fin N → ℝ} {L : (Fin N → ℝ) → Nat → ℝ} {h : ι → Nat → ℝ}
    (hL : Coords dir L h) {x : Item ℝ}
    {len : Nat} (hx : ConicItem x len) (c : ℝ) {X : Point} (hX : Positive x X) (w : Nat → ℝ) :
    ∃ f q, Potential dir {y | Inside x len c (L y)} f
      (fun u y => ∑ j ∈ range len, h u j * (force x len c (L y) j - (pull x X j + gradient w x j))) q ∧
      ∀ y, q y = 0 → Insensitive (L y) x := by
  rcases hx with hx | hx
  · exact real_potential hL hx c hX w
  · obtain ⟨x', δ, E, he⟩ := embeds_of hx
    obtain ⟨f, q, h1, h2⟩ := real_potential hL he.real c ((he.positive X).1 hX) w
    refine ⟨fun y => δ⁻¹ * f y, q, ?_, fun y hy => he.insensitive _ (h2 y hy)⟩
    have h3 := potential_scale h1 (inv_pos.2 he.pos)
    have e1 : {y | Inside x len c (L y)} = {y | Inside x' len c (L y)} := by
      ext y
      exact he.inside c (L y)
    have e2 : (fun (u : ι) y => ∑ j ∈ range len, h u j * (force x len c (L y) j - (pull x X j + gradient w x j))) =
        fun u y => δ⁻¹ * ∑ j ∈ range len, h u j * (force x' len c (L y) j - (pull x' (E X) j + gradient w x' j)) := by
      funext u y
      rw [mul_sum]
      refine sum_congr rfl fun j _ => ?_
      rw [← he.force, ← he.pull, (he.gradient w j).1, (he.gradient w j).2]
      have := inv_mul_cancel₀ he.pos.ne'
      linear_combination (-(h u j * (force x len c (L y) j - pull x X j))) * this
    rw [e1, e2]
    exact h3

theorem inside_congr {x : Item ℝ} {len : Nat} (hx : ConicItem x len) (c : ℝ) {y z : Nat → ℝ} (h : ∀ j < len, y j = z j) :
    Inside x len c y ↔ Inside x len c z := by
  rcases hx with hx | hx
  · exact real_congr hx c h
  · obtain ⟨x', δ, E, he⟩ := embeds_of hx
    rw [he.inside, he.inside]
    exact real_congr he.real c h

theorem item_mono {x : Item ℝ} {len : Nat} (hx : ConicItem x len) {c : ℝ} {z z' : Nat → ℝ} (hz : Inside x len c z)
    (hz' : Inside x len c z') :
    0 ≤ ∑ j ∈ range len, (z' j - z j) * (force x len c z' j - force x len c z j) ∧
    (∑ j ∈ range len, (z' j - z j) * (force x len c z' j - force x len c z j) = 0 →
      Insensitive (fun j => z' j - z j) x) := by
  rcases hx with hx | hx
  · exact real_mono hx hz hz'
  · obtain ⟨x', δ, E, he⟩ := embeds_of hx
    obtain ⟨h1, h2⟩ := real_mono he.real ((he.inside _ _).1 hz) ((he.inside _ _).1 hz')
    have e : ∑ j ∈ range len, (z' j - z j) * (force x' len c z' j - force x' len c z j) =
        δ * ∑ j ∈ range len, (z' j - z j) * (force x len c z' j - force x len c z j) := by
      rw [mul_sum]
      refine sum_congr rfl fun j _ => ?_
      rw [← he.force, ← he.force]
      ring
    rw [e] at h1 h2
    exact ⟨nonneg_of_mul_nonneg_right h1 he.pos, fun h => he.insensitive _ (h2 (by rw [h, mul_zero]))⟩

theorem item_sum {x : Item ℝ} {len : Nat} (hx : ConicItem x len) {c : ℝ} {z y : Nat → ℝ} (hz : Inside x len c z)
    (X : Point) (w : Nat → ℝ) :
    ∑ j ∈ range len, (z j - y j) * (force x len c z j - (pull x X j + gradient w x j)) =
      product x len c z X + mixed x len c z y - x.rank - product x len c y X +
        ∑ j ∈ range len, (z j - y j) * (gradient z x j - gradient w x j) := by
  rcases hx with hx | hx
  · exact real_sum hx hz X w
  · obtain ⟨x', δ, E, he⟩ := embeds_of hx
    have h1 := real_sum he.real ((he.inside _ _).1 hz) (E X) w (y := y)
    refine mul_left_cancel₀ he.pos.ne' ?_
    rw [← he.product, ← he.product, ← he.mixed, ← he.rank] at h1
    have e : ∑ j ∈ range len, (z j - y j) * (force x' len c z j - (pull x' (E X) j + gradient w x' j)) =
        δ * ∑ j ∈ range len, (z j - y j) * (force x len c z j - (pull x X j + gradient w x j)) := by
      rw [mul_sum]
      refine sum_congr rfl fun j _ => ?_
      rw [← he.force, ← he.pull, (he.gradient w j).1, (he.gradient w j).2]
      ring
    have e1 : ∀ u j, gradient u x j = 0 := fun u j => (he.gradient u j).1
    have e2 : ∀ u j, gradient u x' j = 0 := fun u j => (he.gradient u j).2
    rw [← e, h1]
    simp only [e1, e2, sub_self, mul_zero, sum_const_zero]
    ring

theorem item_separation {x : Item ℝ} {len : Nat} (hx : ConicItem x len) {c : ℝ} {z y : Nat → ℝ} (hz : Inside x len c z)
    (hy : Inside x len c y) {X : Point} (hX : Positive x X) {μ ν : ℝ} (hμ : 0 < μ) (hν : 0 < ν) (h1 : DualAbove μ x X)
    (h2 : SlackAbove ν x len c y) :
    separation x len c z ≤ (product x len c z X + mixed x len c z y) * (1 / μ + 1 / ν) - 2 * x.rank := by
  rcases hx with hx | hx
  · exact real_separation hx hz hy hX hμ hν h1 h2
  · obtain ⟨x', δ, E, he⟩ := embeds_of hx
    have h := real_separation he.real ((he.inside _ _).1 hz) ((he.inside _ _).1 hy) ((he.positive X).1 hX) hμ hν
      ((he.dualAbove _ _).1 h1) ((he.slackAbove _ _ _).1 h2)
    rw [← he.separation, ← he.product, ← he.mixed, ← he.rank] at h
    refine le_of_mul_le_mul_left (h.trans (le_of_eq ?_)) he.pos
    ring

theorem item_scale {x : Item ℝ} {len : Nat} (hx : ConicItem x len) {a : ℝ} (ha : 0 < a) :
    (∀ c y, Inside x len c y → Inside x len (a * c) fun j => a * y j) ∧ (∀ X, Positive x X → Positive x (Point.smul a X)) ∧
    (∀ X j, pull x (Point.smul a X) j = a * pull x X j) ∧
    (∀ b c y X, product x len (b * c) (fun j => b * y j) (Point.smul a X) = a * b * product x len c y X) ∧
    (∀ μ X, DualAbove μ x X → DualAbove (a * μ) x (Point.smul a X)) ∧
    (∀ ν c y, SlackAbove ν x len c y → SlackAbove (a * ν) x len (a * c) fun j => a * y j) ∧
    ∀ y j, gradient (fun j => a * y j) x j = a * gradient y x j := by
  rcases hx with hx | hx
  · exact real_scale hx ha
  · obtain ⟨x', δ, E, he⟩ := embeds_of hx
    obtain ⟨h1, h2, h3, h4, h5, h6, -⟩ := real_scale he.real ha
    refine ⟨fun c y h => ?_, fun X h => ?_, fun X j => ?_, fun b c y X => ?_, fun μ X h => ?_, fun ν c y h => ?_,
      fun y j => ?_⟩
    · exact (he.inside _ _).2 (h1 c y ((he.inside _ _).1 h))
    · rw [he.positive, he.smul]
      exact h2 _ ((he.positive X).1 h)
    · refine mul_left_cancel₀ he.pos.ne' ?_
      rw [he.pull, he.smul, h3, ← he.pull]
      ring
    · refine mul_left_cancel₀ he.pos.ne' ?_
      rw [he.product, he.smul, h4, ← he.product]
      ring
    · rw [he.dualAbove, he.smul]
      exact h5 _ _ ((he.dualAbove _ _).1 h)
    · rw [he.slackAbove]
      exact h6 _ _ _ ((he.slackAbove _ _ _).1 h)
    · rw [(he.gradient _ _).1, (he.gradient _ _).1, mul_zero]

/-- The inverse of the slack. -/
noncomputable def inversePoint (x : Item ℝ) (len : Nat) (c : ℝ) (y : Nat → ℝ) : Point where
  cell r := inverse (form x) (cellSlack x len c y r)
  matrix k := match x with
    | .lmi m o _ => if h : m = k then h ▸ (Lmi.Spec.slack o c y)⁻¹ else 0
    | _ => 0
  hyper d' m' := match x with
    | .hermitian d m _ o _ => if h : d = d' ∧ m = m' then h.1 ▸ h.2 ▸ hyperInverse (hyperSlack o c y) else fun _ => 0
    | _ => fun _ => 0

theorem real_inverse {x : Item ℝ} {len : Nat} (hx : RealItem x len) {c : ℝ} {z : Nat → ℝ} (hz : Inside x len c z) :
    Positive x (inversePoint x len c z) ∧
    ∀ j, pull x (inversePoint x len c z) j + gradient z x j = force x len c z j := by
  rcases hx with ⟨m, o, w', rfl, rfl, ho, -⟩ | ⟨hk, -⟩
  · have g1 : (Lmi.Spec.slack o c z).PosDef := hz
    have e : (inversePoint (.lmi m o w') o.m c z).matrix m = (Lmi.Spec.slack o c z)⁻¹ := by
      simp [inversePoint]
    refine ⟨?_, fun j => ?_⟩
    · change ((inversePoint (.lmi m o w') o.m c z).matrix m).PosDef
      rw [e]
      exact g1.inv
    · change (o.A j * (inversePoint (.lmi m o w') o.m c z).matrix m).trace + 0 = (o.A j * (Lmi.Spec.slack o c z)⁻¹).trace
      rw [e, add_zero]
  · have hv := vector_of hk
    have g1 := (hv.inside c z).1 hz
    refine ⟨(hv.positive _).2 fun r hr => ?_, fun j => ?_⟩
    · change Interior (form x) (inverse (form x) (cellSlack x len c z r))
      rw [cellSlack_eq]
      exact ConeCentering.inverse_interior hk.form (g1 r hr)
    · rw [hv.pull, hv.force]
      rfl

theorem inversePoint_spec {x : Item ℝ} {len : Nat} (hx : ConicItem x len) {c : ℝ} {z : Nat → ℝ} (hz : Inside x len c z) :
    Positive x (inversePoint x len c z) ∧
    ∀ j, pull x (inversePoint x len c z) j + gradient z x j = force x len c z j := by
  rcases hx with hx | ⟨d, m, hd, o, w, rfl, rfl, h4, ho, hW⟩
  · exact real_inverse hx hz
  · have hD := Hyper.dim_of_assoc h4
    have e : (inversePoint (.hermitian d m hd o w) o.mats.length c z).hyper d m = hyperInverse (hyperSlack o c z) := by
      simp [inversePoint]
    refine ⟨?_, fun j => ?_⟩
    · change HermLmi.Spec.PosDef ((inversePoint (.hermitian d m hd o w) o.mats.length c z).hyper d m)
      rw [e, HermLmi.posDef_lmat hD, lmat_inverse h4]
      exact ((HermLmi.posDef_lmat hD _).1 hz).inv
    · change HermLmi.Spec.inner (o.mats.getD j fun _ => 0)
        ((inversePoint (.hermitian d m hd o w) o.mats.length c z).hyper d m) + 0 = HermLmi.Spec.inner _ _
      rw [e, add_zero]

/-! ### Programs -/

/-- The shape of the programs. -/
structure ConicShape (es : List (Entry ℝ)) (N : Nat) : Prop where
  vars : ∀ e ∈ es, e.vars.Nodup ∧ ∀ v ∈ e.vars, v < N
  kind : ∀ e ∈ es, ConicItem e.item e.vars.length

theorem conicShape_of {p : Iteration.Setup ℝ} {duals : List (List Nat)} {x : Iteration.State ℝ}
    (hr : Iteration.Spec.Ready p duals x) : ConicShape x.es p.N :=
  ⟨fun e he => ⟨(hr.good e he).1, (hr.good e he).2.1⟩, fun e he =>
    conicItem_of (hr.good e he) (hr.usable e he)⟩

theorem ConicShape.costs {es : List (Entry ℝ)} {N : Nat} (hs : ConicShape es N) : Centering.Costs es N := by
  refine ⟨hs.vars, fun i hi => ?_⟩
  rcases hs.kind _ (Whole.nth_mem hi) with (⟨m, o, w, ho, -⟩ | ⟨hk, -⟩) | ⟨d, m, hd, o, w, ho, -⟩
  · exact Or.inl (by rw [ho]; exact ⟨rfl, rfl⟩)
  · rcases hk with ⟨o, w, ho, -⟩ | ⟨o, w, ho, -⟩ | ⟨o, w, ho, -⟩ | ⟨n, Q, ho, hn, hQ⟩
    · exact Or.inl (by rw [ho]; exact ⟨rfl, rfl⟩)
    · exact Or.inl (by rw [ho]; exact ⟨rfl, rfl⟩)
    · exact Or.inl (by rw [ho]; exact ⟨rfl, rfl⟩)
    · exact Or.inr ⟨n, Q, ho, hn, hQ⟩
  · exact Or.inl (by rw [ho]; exact ⟨rfl, rfl⟩)

theorem ventry_sub (L : List Nat) (f g : Nat → ℝ) (u : Nat) :
    Sup.Spec.ventry L (fun j => f j - g j) u = Sup.Spec.ventry L f u - Sup.Spec.ventry L g u := by
  unfold Sup.Spec.ventry
  split_ifs
  · rfl
  · simp

theorem ventry_scale (L : List Nat) (a : ℝ) (f : Nat → ℝ) (u : Nat) :
    Sup.Spec.ventry L (fun j => a * f j) u = a * Sup.Spec.ventry L f u := by
  unfold Sup.Spec.ventry
  split_ifs
  · rfl
  · simp

theorem insensitive_zero {es : List (Entry ℝ)} {N : Nat} (hd : Determined N es) {y : Nat → ℝ}
    (h : ∀ i < es.length, Insensitive (unknowns (nth es i) y) (nth es i).item) : ∀ u < N, y u = 0 := by
  by_contra hcon
  push Not at hcon
  obtain ⟨e, he, hn⟩ := hd y hcon
  obtain ⟨i, hi⟩ := List.getElem?_of_mem he
  have hlt := (List.getElem?_eq_some_iff.1 hi).1
  have hi' := Whole.nth_of hi
  subst hi'
  exact hn (h i hlt)

/-- The sum of products with the entries of the constraints. -/
theorem sum_entries {es : List (Entry ℝ)} {N : Nat} (hs : ConicShape es N) (x : Nat → ℝ) (F : Nat → Nat → ℝ) :
    ∑ u ∈ range N, x u * ∑ i ∈ range es.length, Sup.Spec.ventry (nth es i).vars (F i) u =
      ∑ i ∈ range es.length, ∑ j ∈ range (nth es i).vars.length, unknowns (nth es i) x j * F i j := by
  simp only [mul_sum]
  rw [sum_comm]
  refine sum_congr rfl fun i hi => ?_
  have := hs.vars _ (Whole.nth_mem (mem_range.1 hi))
  rw [Gap.sum_ventry this.1 this.2]
  rfl

/-- A vector that is orthogonal to all vectors orthogonal to `a k` is a combination of these. -/
theorem exists_multipliers {N : Nat} {κ : Type} [Fintype κ] (a : κ → Fin N → ℝ) (G : Fin N → ℝ)
    (h : ∀ x : Fin N → ℝ, (∀ k, ∑ u, x u * a k u = 0) → ∑ u, x u * G u = 0) :
    ∃ l : κ → ℝ, ∀ u, G u = ∑ k, l k * a k u := by
  classical
  have hm : Fintype.linearCombination ℝ G ∈ Submodule.span ℝ (Set.range fun k => Fintype.linearCombination ℝ (a k)) := by
    refine FiniteDimensional.mem_span_of_iInf_ker_le_ker fun x hx => ?_
    rw [LinearMap.mem_ker, Fintype.linearCombination_apply]
    refine h x fun k => ?_
    have := (Submodule.mem_iInf _).1 hx k
    rwa [LinearMap.mem_ker, Fintype.linearCombination_apply] at this
  obtain ⟨l, hl⟩ := (Submodule.mem_span_range_iff_exists_fun ℝ).1 hm
  refine ⟨l, fun u => ?_⟩
  have := congrArg (fun f => f (Pi.single u 1)) hl
  simp only [LinearMap.sum_apply, LinearMap.smul_apply, Fintype.linearCombination_apply, smul_eq_mul, Pi.single_apply,
    ite_mul, one_mul, zero_mul, sum_ite_eq', mem_univ, if_true] at this
  exact this.symm

/-- Central points under linear conditions on the unknowns, which have multipliers. -/
theorem central_exists_on {es : List (Entry ℝ)} {N : Nat} (hs : ConicShape es N) {κ : Type} [Fintype κ] (a : κ → Nat → ℝ)
    (hd : ∀ x : Nat → ℝ, (∀ i < es.length, Insensitive (unknowns (nth es i) x) (nth es i).item) →
      (∀ k, ∑ u ∈ range N, x u * a k u = 0) → ∀ u < N, x u = 0) {g : Nat → ℝ} {c : ℝ}
    {y : Nat → ℝ} {X : Nat → Point} {w : Nat → ℝ} (h : Strict es N g c y X w) :
    ∃ (z : Nat → ℝ) (l : κ → ℝ), Central es N (fun u => g u + ∑ k, l k * a k u) c z ∧
      ∀ k, ∑ u ∈ range N, z u * a k u = ∑ u ∈ range N, y u * a k u := by
  classical
  set ext : (Fin N → ℝ) → Nat → ℝ := fun y u => if h : u < N then y ⟨u, h⟩ else 0 with hext
  have hval : ∀ y (u : Fin N), ext y u = y u := fun y u => by simp [hext]
  have hback : ∀ y' : Nat → ℝ, ∀ u < N, ext (fun u => y' u) u = y' u := fun y' u hu => by simp [hext, hu]
  set V : Type := {x : Fin N → ℝ // ∀ k, ∑ u, x u * a k u = 0} with hV
  have hco : ∀ i ∈ range es.length, Coords (fun x : V => x.1) (fun y => unknowns (nth es i) (ext y))
      fun x j => unknowns (nth es i) (ext x.1) j := by
    intro i hi
    have hv := (hs.vars _ (Whole.nth_mem (mem_range.1 hi))).2
    refine ⟨fun j => ?_, fun a y => ?_, fun z t u => ?_⟩
    · unfold unknowns
      by_cases hu : (nth es i).vars.getD j 0 < N
      · simp only [hext, hu, dif_pos]
        exact continuous_apply _
      · simp only [hext, hu, dif_neg, not_false_eq_true]
        exact continuous_const
    · funext j
      unfold unknowns
      simp only [hext]
      split_ifs
      · rfl
      · rw [mul_zero]
    · funext j
      unfold unknowns
      simp only [hext]
      split_ifs
      · rfl
      · simp
  have hp : ∀ i ∈ range es.length, _ := fun i hi =>
    item_potential (hco i hi) (hs.kind _ (Whole.nth_mem (mem_range.1 hi))) c (h.dual i (mem_range.1 hi))
      (unknowns (nth es i) w)
  choose! f q hpq using hp
  have hP := Potential.sum (range es.length) fun i hi => (hpq i hi).1
  have hun : ∀ i < es.length, ∀ y' : Nat → ℝ, ∀ j < (nth es i).vars.length,
      unknowns (nth es i) (ext fun u => y' u) j = unknowns (nth es i) y' j := fun i hi y' j hj =>
    hback y' _ ((hs.vars _ (Whole.nth_mem hi)).2 _ (ConeCentering.getD_mem hj))
  have hrow : ∀ (y : Fin N → ℝ) k, ∑ u ∈ range N, ext y u * a k u = ∑ u, y u * a k u := fun y k => by
    rw [sum_range]
    exact sum_congr rfl fun u _ => by rw [hval]
  have hrow' : ∀ k, ∑ u : Fin N, y u * a k u = ∑ u ∈ range N, y u * a k u := fun k => by rw [sum_range]
  have hlin : ∀ k, Continuous fun y : Fin N → ℝ => ∑ u, y u * a k u := fun k =>
    continuous_finsetSum _ fun u _ => (continuous_apply u).mul continuous_const
  obtain ⟨z, hz, hzK, hst⟩ := hP.stationary_on (K := {x | ∀ k, ∑ u, x u * a k u = ∑ u : Fin N, y u * a k u})
    (p := fun x => ∑ k, (∑ u, x u * a k u) ^ 2) (P := ∑ k, (∑ u : Fin N, y u * a k u) ^ 2)
    (by
      rw [Set.setOf_forall]
      exact isClosed_iInter fun k => isClosed_eq (hlin k) continuous_const)
    (fun z hz x t k => by
      rw [← hz k]
      simp only [Pi.add_apply, Pi.smul_apply, smul_eq_mul, add_mul, sum_add_distrib, mul_assoc, ← mul_sum, x.2 k, mul_zero,
        add_zero])
    (continuous_finsetSum _ fun k _ => (hlin k).pow 2) (fun x => sum_nonneg fun k _ => sq_nonneg _)
    (fun t x => by
      simp only [Pi.smul_apply, smul_eq_mul, mul_assoc, ← mul_sum, mul_pow])
    (fun x hx => le_of_eq (sum_congr rfl fun k _ => by rw [hx k]))
    (fun x hq hp => by
      have hq' := (sum_eq_zero_iff_of_nonneg fun i hi => (hpq i hi).1.form_nonneg x).1 hq
      have hp' := (sum_eq_zero_iff_of_nonneg fun k _ => sq_nonneg _).1 hp
      have h1 := hd (ext x) (fun i hi => (hpq i (mem_range.2 hi)).2 x (hq' i (mem_range.2 hi))) fun k => by
        rw [hrow]
        exact pow_eq_zero_iff two_ne_zero |>.1 (hp' k (mem_univ k))
      funext u
      exact (hval x u).symm.trans (h1 u u.2))
    (y₁ := fun u => y u) (fun i hi =>
    (inside_congr (hs.kind _ (Whole.nth_mem (mem_range.1 hi))) c (hun i (mem_range.1 hi) y)).2
      (h.primal _ (Whole.nth_mem (mem_range.1 hi)))) fun k => rfl
  set G : Nat → ℝ := fun u => ∑ i ∈ range es.length, Sup.Spec.ventry (nth es i).vars (fun j =>
    force (nth es i).item (nth es i).vars.length c (unknowns (nth es i) (ext z)) j - (pull (nth es i).item (X i) j +
      gradient (unknowns (nth es i) w) (nth es i).item j)) u with hG
  obtain ⟨l, hl⟩ := exists_multipliers (fun k u => a k u) (fun u => G u) fun x hx => by
    have h1 := hst ⟨x, hx⟩
    have h2 := sum_entries hs (ext x) fun i j => force (nth es i).item (nth es i).vars.length c
      (unknowns (nth es i) (ext z)) j - (pull (nth es i).item (X i) j +
      gradient (unknowns (nth es i) w) (nth es i).item j)
    have h3 := h2.trans h1
    rw [sum_range] at h3
    rw [← h3]
    exact sum_congr rfl fun u _ => by rw [hval]
  refine ⟨ext z, l, ⟨fun e he => ?_, fun u hu => ?_⟩, fun k => by rw [hrow, hzK k, hrow']⟩
  · obtain ⟨i, hi⟩ := List.getElem?_of_mem he
    have hlt := (List.getElem?_eq_some_iff.1 hi).1
    have hi' := Whole.nth_of hi
    subst hi'
    exact hz i (mem_range.2 hlt)
  · have h3 := hl ⟨u, hu⟩
    simp only [hG, ventry_sub, sum_sub_distrib] at h3
    rw [← h.equations u hu, ← h3]
    ring

theorem central_exists {es : List (Entry ℝ)} {N : Nat} (hs : ConicShape es N) (hd : Determined N es) {g : Nat → ℝ} {c : ℝ}
    {y : Nat → ℝ} {X : Nat → Point} {w : Nat → ℝ} (h : Strict es N g c y X w) : ∃ z, Central es N g c z := by
  obtain ⟨z, l, hz, -⟩ := central_exists_on hs (κ := Empty) (fun _ _ => 0) (fun x hx _ => insensitive_zero hd hx) h
  refine ⟨z, ?_⟩
  simpa using hz

/-- Two central points for different costs, if these are orthogonal to the difference. -/
theorem central_mono {es : List (Entry ℝ)} {N : Nat} (hs : ConicShape es N) {g g' : Nat → ℝ} {c : ℝ}
    {z z' : Nat → ℝ} (h : Central es N g c z) (h' : Central es N g' c z') (ho : ∑ u ∈ range N, (z' u - z u) * (g' u - g u) = 0) :
    ∀ i < es.length, Insensitive (unknowns (nth es i) fun u => z' u - z u) (nth es i).item := by
  have h1 := sum_entries hs (fun u => z' u - z u) fun i j =>
    force (nth es i).item (nth es i).vars.length c (unknowns (nth es i) z') j -
      force (nth es i).item (nth es i).vars.length c (unknowns (nth es i) z) j
  have h2 : ∑ u ∈ range N, (z' u - z u) * ∑ i ∈ range es.length, Sup.Spec.ventry (nth es i).vars (fun j =>
      force (nth es i).item (nth es i).vars.length c (unknowns (nth es i) z') j -
      force (nth es i).item (nth es i).vars.length c (unknowns (nth es i) z) j) u = 0 := by
    rw [← ho]
    refine sum_congr rfl fun u hu => ?_
    simp only [ventry_sub, sum_sub_distrib]
    rw [h.stationary u (mem_range.1 hu), h'.stationary u (mem_range.1 hu)]
  rw [h2] at h1
  have hm := fun i (hi : i < es.length) => item_mono (hs.kind _ (Whole.nth_mem hi)) (h.inside _ (Whole.nth_mem hi))
    (h'.inside _ (Whole.nth_mem hi))
  have h3 := (sum_eq_zero_iff_of_nonneg fun i hi => (hm i (mem_range.1 hi)).1).1 h1.symm
  exact fun i hi => (hm i hi).2 (h3 i (mem_range.2 hi))

theorem central_unique {es : List (Entry ℝ)} {N : Nat} (hs : ConicShape es N) (hd : Determined N es) {g : Nat → ℝ} {c : ℝ}
    {z z' : Nat → ℝ} (h : Central es N g c z) (h' : Central es N g c z') : ∀ u < N, z' u = z u := fun u hu =>
  sub_eq_zero.1 (insensitive_zero hd (y := fun u => z' u - z u)
    (central_mono hs h h' (sum_eq_zero fun u _ => by rw [sub_self, mul_zero])) u hu)

theorem rank_sum (es : List (Entry ℝ)) : (rank es : ℝ) = ∑ i ∈ range es.length, ((nth es i).item.rank : ℝ) := by
  rw [Gap.rank_eq]
  have h : ∀ l : List ℝ, l.sum = ∑ i ∈ range l.length, l.getD i 0 := fun l => by
    induction l with
    | nil => rfl
    | cons a l ih => rw [List.sum_cons, List.length_cons, sum_range_succ', ih, add_comm]; rfl
  rw [h, List.length_map]
  refine sum_congr rfl fun i hi => ?_
  rw [List.getD_eq_getElem?_getD, List.getElem?_map, Whole.nth_get (mem_range.1 hi)]
  rfl

theorem interior_distance_on {es : List (Entry ℝ)} {N : Nat} (hs : ConicShape es N) {g g' : Nat → ℝ} {c : ℝ}
    {y : Nat → ℝ} {X : Nat → Point} {w z : Nat → ℝ} (h : Strict es N g c y X w) (hz : Central es N g' c z)
    (ho : ∑ u ∈ range N, (z u - y u) * (g' u - g u) = 0)
    {μ ν : ℝ} (hμ : 0 < μ) (hν : 0 < ν)
    (h1 : ∀ i < es.length, DualAbove μ (nth es i).item (X i))
    (h2 : ∀ i < es.length, SlackAbove ν (nth es i).item (nth es i).vars.length c (unknowns (nth es i) y)) :
    distance es c z ≤ (rank es + products es c y X + curvature es N (fun u => w u - y u) / 4) * (1 / μ + 1 / ν) -
      2 * rank es := by
  have g1 := sum_entries hs (fun u => z u - y u) fun i j =>
    force (nth es i).item (nth es i).vars.length c (unknowns (nth es i) z) j -
      (pull (nth es i).item (X i) j + gradient (unknowns (nth es i) w) (nth es i).item j)
  have g2 : ∑ u ∈ range N, (z u - y u) * ∑ i ∈ range es.length, Sup.Spec.ventry (nth es i).vars (fun j =>
      force (nth es i).item (nth es i).vars.length c (unknowns (nth es i) z) j -
      (pull (nth es i).item (X i) j + gradient (unknowns (nth es i) w) (nth es i).item j)) u = 0 := by
    rw [← ho]
    refine sum_congr rfl fun u hu => ?_
    simp only [ventry_sub, sum_sub_distrib]
    rw [hz.stationary u (mem_range.1 hu), h.equations u (mem_range.1 hu)]
  have g3 := sum_entries hs (fun u => z u - y u) fun i j =>
    gradient (unknowns (nth es i) z) (nth es i).item j - gradient (unknowns (nth es i) w) (nth es i).item j
  have g4 : ∑ u ∈ range N, (z u - y u) * ∑ i ∈ range es.length, Sup.Spec.ventry (nth es i).vars (fun j =>
      gradient (unknowns (nth es i) z) (nth es i).item j - gradient (unknowns (nth es i) w) (nth es i).item j) u =
      ∑ u ∈ range N, (z u - y u) * gradients es (fun u => z u - w u) u := by
    refine sum_congr rfl fun u _ => ?_
    rw [hs.costs.gradients_sub]
    simp only [ventry_sub, sum_sub_distrib]
    rfl
  have g5 := hs.costs.cross_ge (fun u => z u - y u) fun u => z u - w u
  have g6 : (fun u => z u - y u - (z u - w u)) = fun u => w u - y u := by
    funext u
    ring
  rw [g6] at g5
  rw [g2] at g1
  rw [g4] at g3
  have g7 : ∑ i ∈ range es.length, ∑ j ∈ range (nth es i).vars.length, unknowns (nth es i) (fun u => z u - y u) j *
      (force (nth es i).item (nth es i).vars.length c (unknowns (nth es i) z) j -
      (pull (nth es i).item (X i) j + gradient (unknowns (nth es i) w) (nth es i).item j)) =
      ∑ i ∈ range es.length, (product (nth es i).item (nth es i).vars.length c (unknowns (nth es i) z) (X i) +
        mixed (nth es i).item (nth es i).vars.length c (unknowns (nth es i) z) (unknowns (nth es i) y)) -
      rank es - products es c y X + ∑ i ∈ range es.length, ∑ j ∈ range (nth es i).vars.length,
        unknowns (nth es i) (fun u => z u - y u) j *
        (gradient (unknowns (nth es i) z) (nth es i).item j - gradient (unknowns (nth es i) w) (nth es i).item j) := by
    rw [rank_sum]
    unfold products
    rw [← sum_sub_distrib, ← sum_sub_distrib, ← sum_add_distrib]
    refine sum_congr rfl fun i hi => ?_
    have hm := Whole.nth_mem (mem_range.1 hi)
    exact item_sum (hs.kind _ hm) (hz.inside _ hm) (X i) _
  rw [← g1, ← g3] at g7
  have g8 : distance es c z ≤ (∑ i ∈ range es.length, (product (nth es i).item (nth es i).vars.length c
      (unknowns (nth es i) z) (X i) + mixed (nth es i).item (nth es i).vars.length c (unknowns (nth es i) z)
      (unknowns (nth es i) y))) * (1 / μ + 1 / ν) - 2 * rank es := by
    rw [rank_sum, mul_sum, sum_mul, ← sum_sub_distrib]
    refine sum_le_sum fun i hi => ?_
    have hi := mem_range.1 hi
    have hm := Whole.nth_mem hi
    exact item_separation (hs.kind _ hm) (hz.inside _ hm) (h.primal _ hm) (h.dual i hi) hμ hν (h1 i hi) (h2 i hi)
  refine g8.trans (sub_le_sub_right (mul_le_mul_of_nonneg_right ?_ (by positivity)) _)
  linarith

theorem interior_distance {es : List (Entry ℝ)} {N : Nat} (hs : ConicShape es N) {g : Nat → ℝ} {c : ℝ}
    {y : Nat → ℝ} {X : Nat → Point} {w z : Nat → ℝ} (h : Strict es N g c y X w) (hz : Central es N g c z)
    {μ ν : ℝ} (hμ : 0 < μ) (hν : 0 < ν)
    (h1 : ∀ i < es.length, DualAbove μ (nth es i).item (X i))
    (h2 : ∀ i < es.length, SlackAbove ν (nth es i).item (nth es i).vars.length c (unknowns (nth es i) y)) :
    distance es c z ≤ (rank es + products es c y X + curvature es N (fun u => w u - y u) / 4) * (1 / μ + 1 / ν) -
      2 * rank es :=
  interior_distance_on hs h hz (sum_eq_zero fun u _ => by rw [sub_self, mul_zero]) hμ hν h1 h2

/-- Interior points of the scaled program. -/
theorem strict_scale {es : List (Entry ℝ)} {N : Nat} (hs : ConicShape es N) {b : Nat → ℝ} {y : Nat → ℝ}
    {X : Nat → Point} {w : Nat → ℝ} (h : Strict es N b 1 y X w) {β γ : ℝ} (hβ : 0 < β) (hγ : 0 < γ) :
    Strict es N (fun u => β * b u) γ (fun u => γ * y u) (fun i => Point.smul β (X i)) (fun u => β * w u) ∧
    products es γ (fun u => γ * y u) (fun i => Point.smul β (X i)) = β * γ * products es 1 y X := by
  refine ⟨⟨fun e he => ?_, fun i hi => ?_, fun u hu => ?_⟩, ?_⟩
  · have h1 := (item_scale (hs.kind e he) hγ).1 1 _ (h.primal e he)
    rw [mul_one] at h1
    exact h1
  · exact (item_scale (hs.kind _ (Whole.nth_mem hi)) hβ).2.1 _ (h.dual i hi)
  · rw [← h.equations u hu, mul_sum]
    refine sum_congr rfl fun i hi => ?_
    rw [← ventry_scale]
    obtain ⟨-, -, h1, -, -, -, h2⟩ := item_scale (hs.kind _ (Whole.nth_mem (mem_range.1 hi))) hβ
    refine Whole.ventry_congr (fun j _ => ?_) u
    rw [h1, mul_add, ← h2]
    rfl
  · unfold products
    rw [mul_sum]
    refine sum_congr rfl fun i hi => ?_
    obtain ⟨-, -, -, h1, -⟩ := item_scale (hs.kind _ (Whole.nth_mem (mem_range.1 hi))) hβ
    have h2 := h1 γ 1 (unknowns (nth es i) y) (X i)
    rw [mul_one] at h2
    exact h2

end Verif.MatrixCentering
