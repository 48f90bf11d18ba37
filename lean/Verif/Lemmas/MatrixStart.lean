import Verif.Lemmas.MatrixSolve
import Verif.Props.MatrixExists

/-!
# Lemmas for C99: solving programs with matrix inequalities from the identity
-/

namespace Verif.MatrixCentering

open Finset Verif.Dual Whole Whole.Spec Iteration.Spec
open Soc (El)
open Spin.Spec (IsForm Interior tr)
open ConeCentering.Spec (cells form pair point inverse Below)
open Centering.Spec (curvature gradients)
open Spec (Short RealCones HermitianCones SameUpdate Central distance unknowns Point Positive Inside Strict DualAbove SlackAbove product products)

/-! ### Interior points -/

theorem real_product_nonneg {x : Item ℝ} {len : Nat} (hx : RealItem x len) {c : ℝ} {y : Nat → ℝ} (hy : Inside x len c y)
    {X : Point} (hX : Positive x X) : 0 ≤ product x len c y X := by
  rcases hx with ⟨m, o, w', rfl, rfl, ho, hW⟩ | ⟨hk, hw⟩
  · have g1 : (Lmi.Spec.slack o c y).PosDef := hy
    have g2 : (X.matrix m).PosDef := hX
    exact LogDet.trace_mul_nonneg g2.posSemidef g1
  · have hv := vector_of hk
    have g1 := (hv.inside c y).1 hy
    have g2 := (hv.positive X).1 hX
    rw [hv.product]
    refine sum_nonneg fun r hr => mul_nonneg (ConeCentering.half_pos x).le ?_
    have h1 := g1 r (mem_range.1 hr)
    have h2 := g2 r (mem_range.1 hr)
    exact Spin.tr_nonneg hk.form ⟨h2.1.le, h2.2.le⟩ ⟨h1.1.le, h1.2.le⟩

theorem item_product_nonneg {x : Item ℝ} {len : Nat} (hx : ConicItem x len) {c : ℝ} {y : Nat → ℝ} (hy : Inside x len c y)
    {X : Point} (hX : Positive x X) : 0 ≤ product x len c y X := by
  rcases hx with hx | hx
  · exact real_product_nonneg hx hy hX
  · obtain ⟨x', δ, E, h⟩ := embeds_of hx
    have h1 := real_product_nonneg h.real ((h.inside c y).1 hy) ((h.positive X).1 hX)
    rw [← h.product] at h1
    exact nonneg_of_mul_nonneg_right h1 h.pos

theorem products_nonneg {es : List (Entry ℝ)} {N : Nat} (hs : ConicShape es N) {g : Nat → ℝ} {c : ℝ} {y : Nat → ℝ}
    {X : Nat → Point} {w : Nat → ℝ} (h : Strict es N g c y X w) : 0 ≤ products es c y X :=
  sum_nonneg fun i hi => by
    have hi := mem_range.1 hi
    have hm := Whole.nth_mem hi
    exact item_product_nonneg (hs.kind _ hm) (h.primal _ hm) (h.dual i hi)

theorem curvature_none {es : List (Entry ℝ)} (hc : NoCosts es) (N : Nat) (y : Nat → ℝ) : curvature es N y = 0 := by
  refine sum_eq_zero fun u _ => ?_
  have : gradients es y u = 0 := by
    refine sum_eq_zero fun i hi => ?_
    have h1 := hc _ (Whole.nth_mem (mem_range.1 hi))
    have h2 : Centering.Spec.gradient (fun j => y ((nth es i).vars.getD j 0)) (nth es i).item = fun _ => 0 := by
      cases ho : (nth es i).item with
      | cost n Q => exact absurd ho (h1 n Q)
      | _ => rfl
    rw [h2]
    simp [Sup.Spec.ventry]
  rw [this, mul_zero]

/-! ### Interior points are above multiples of the scaling points -/

theorem cell_above {B : (Nat → ℝ) → (Nat → ℝ) → ℝ} (hB : IsForm B) {x w : El ℝ} (hx : Interior B x) (hw : Interior B w) :
    ∃ a > (0 : ℝ), ∀ b, 0 ≤ b → b ≤ a → Below B b w x := by
  obtain ⟨h1, h2⟩ := hx
  obtain ⟨h3, h4⟩ := hw
  have hpos : 0 < 4 * (x.h * w.h) := by positivity
  refine ⟨(x.h ^ 2 - B x.t x.t) / (4 * (x.h * w.h)), div_pos (by linarith) hpos, fun b hb0 hb => ?_⟩
  rw [le_div_iff₀ hpos] at hb
  have hc : B x.t w.t ≤ x.h * w.h ∧ -(x.h * w.h) ≤ B x.t w.t := by
    have h5 : B x.t w.t ^ 2 ≤ (x.h * w.h) ^ 2 := by
      rw [mul_pow]
      exact (hB.cauchy _ _).trans (mul_le_mul h2.le h4.le (hB.nonneg _) (sq_nonneg _))
    have := abs_le.1 (abs_le_of_sq_le_sq h5 (by positivity))
    exact ⟨this.2, this.1⟩
  have h5 := hB.nonneg x.t
  have h6 : b * w.h ≤ x.h := by
    have : x.h * (b * w.h) ≤ x.h * x.h := by nlinarith
    exact le_of_mul_le_mul_left this h1
  refine ⟨by simpa using sub_nonneg.2 h6, ?_⟩
  have e : (fun l => x.t l - b * w.t l) = fun l => x.t l + (-b) * w.t l := by
    funext l
    ring
  show B (fun l => x.t l - b * w.t l) (fun l => x.t l - b * w.t l) ≤ (x.h - b * w.h) ^ 2
  rw [e, hB.add, hB.add_right, hB.add_right, hB.smul, hB.smul, hB.smul_right, hB.smul_right, hB.symm w.t x.t]
  have h7 : 0 ≤ b ^ 2 * (w.h ^ 2 - B w.t w.t) := mul_nonneg (sq_nonneg _) (by linarith)
  have h8 := mul_le_mul_of_nonneg_left hc.2 hb0
  nlinarith

theorem matrix_above {m : Nat} {X W : Matrix (Fin m) (Fin m) ℝ} (hX : X.PosDef) (hW : W.transpose = W) :
    ∃ a > (0 : ℝ), ∀ b, 0 ≤ b → b ≤ a → (X - b • W).PosSemidef := by
  obtain ⟨a, ha, h⟩ := Metric.eventually_nhds_iff.1 (LogDet.eventually_posDef hX (H := -W) (by rw [Matrix.transpose_neg, hW]))
  refine ⟨a / 2, half_pos ha, fun b hb0 hb => ?_⟩
  have := h (y := b) (by
    rw [Real.dist_eq, sub_zero, abs_of_nonneg hb0]
    linarith)
  rw [smul_neg, ← sub_eq_add_neg] at this
  exact this.posSemidef

/-- A common bound. -/
theorem common_bound (n : Nat) (p : Nat → ℝ → Prop) (h : ∀ i < n, ∃ a > (0 : ℝ), ∀ b, 0 ≤ b → b ≤ a → p i b) :
    ∃ a > (0 : ℝ), ∀ i < n, ∀ b, 0 ≤ b → b ≤ a → p i b := by
  induction n with
  | zero => exact ⟨1, one_pos, fun i hi => absurd hi (Nat.not_lt_zero i)⟩
  | succ n ih =>
    obtain ⟨a, ha, h1⟩ := ih fun i hi => h i (by omega)
    obtain ⟨a', ha', h2⟩ := h n (by omega)
    refine ⟨min a a', lt_min ha ha', fun i hi b hb0 hb => ?_⟩
    rcases Nat.lt_succ_iff_lt_or_eq.1 hi with hi | rfl
    · exact h1 i hi b hb0 (hb.trans (min_le_left _ _))
    · exact h2 b hb0 (hb.trans (min_le_right _ _))

theorem real_above {x : Item ℝ} {len : Nat} (hx : RealItem x len) {X : Point} (hX : Positive x X) :
    ∃ a > (0 : ℝ), ∀ b, 0 ≤ b → b ≤ a → DualAbove b x X := by
  rcases hx with ⟨m, o, w', rfl, rfl, ho, hW⟩ | ⟨hk, hw⟩
  · exact matrix_above (X := X.matrix m) (W := w'.W) hX (Lmi.transpose_of_posDef hW)
  · have hv := vector_of hk
    have g2 := (hv.positive X).1 hX
    obtain ⟨a, ha, h⟩ := common_bound (cells x) _ fun r hr => cell_above hk.form (g2 r hr) (hw r hr)
    exact ⟨a, ha, fun b hb0 hb => (hv.dualAbove b X).2 fun r hr => h r hr b hb0 hb⟩

theorem real_slack_above {x : Item ℝ} {len : Nat} (hx : RealItem x len) {c : ℝ} {y : Nat → ℝ} (hy : Inside x len c y) :
    ∃ a > (0 : ℝ), ∀ b, 0 ≤ b → b ≤ a → SlackAbove b x len c y := by
  rcases hx with ⟨m, o, w', rfl, rfl, ho, hW⟩ | ⟨hk, hw⟩
  · have g1 : (Lmi.Spec.slack o c y).PosDef := hy
    exact matrix_above g1 (Lmi.transpose_of_posDef hW.inv)
  · have hv := vector_of hk
    have g1 := (hv.inside c y).1 hy
    obtain ⟨a, ha, h⟩ := common_bound (cells x) _ fun r hr => cell_above hk.form (g1 r hr)
      (ConeCentering.inverse_interior hk.form (hw r hr))
    exact ⟨a, ha, fun b hb0 hb => (hv.slackAbove b c y).2 fun r hr => h r hr b hb0 hb⟩

theorem item_above {x : Item ℝ} {len : Nat} (hx : ConicItem x len) {X : Point} (hX : Positive x X) :
    ∃ a > (0 : ℝ), ∀ b, 0 ≤ b → b ≤ a → DualAbove b x X := by
  rcases hx with hx | hx
  · exact real_above hx hX
  · obtain ⟨x', δ, E, h⟩ := embeds_of hx
    obtain ⟨a, ha, h1⟩ := real_above h.real ((h.positive X).1 hX)
    exact ⟨a, ha, fun b hb0 hb => (h.dualAbove b X).2 (h1 b hb0 hb)⟩

theorem item_slack_above {x : Item ℝ} {len : Nat} (hx : ConicItem x len) {c : ℝ} {y : Nat → ℝ} (hy : Inside x len c y) :
    ∃ a > (0 : ℝ), ∀ b, 0 ≤ b → b ≤ a → SlackAbove b x len c y := by
  rcases hx with hx | hx
  · exact real_slack_above hx hy
  · obtain ⟨x', δ, E, h⟩ := embeds_of hx
    obtain ⟨a, ha, h1⟩ := real_slack_above h.real ((h.inside c y).1 hy)
    exact ⟨a, ha, fun b hb0 hb => (h.slackAbove b c y).2 (h1 b hb0 hb)⟩

/-- Interior points are above positive multiples of all scaling points. -/
theorem strict_above {es : List (Entry ℝ)} {N : Nat} (hs : ConicShape es N) {g : Nat → ℝ} {c : ℝ} {y : Nat → ℝ}
    {X : Nat → Point} {w : Nat → ℝ} (h : Strict es N g c y X w) :
    (∃ μ > (0 : ℝ), ∀ i < es.length, DualAbove μ (nth es i).item (X i)) ∧
    ∃ ν > (0 : ℝ), ∀ i < es.length, SlackAbove ν (nth es i).item (nth es i).vars.length c (unknowns (nth es i) y) := by
  obtain ⟨μ, hμ, h1⟩ := common_bound es.length _ fun i hi => item_above (hs.kind _ (Whole.nth_mem hi)) (h.dual i hi)
  obtain ⟨ν, hν, h2⟩ := common_bound es.length _ fun i hi =>
    item_slack_above (hs.kind _ (Whole.nth_mem hi)) (h.primal _ (Whole.nth_mem hi))
  exact ⟨⟨μ, hμ, fun i hi => h1 i hi μ hμ.le le_rfl⟩, ν, hν, fun i hi => h2 i hi ν hν.le le_rfl⟩

/-! ### The initial centering -/

/-- Centering keeps what an iteration needs. -/
theorem run_ready {v : Env ℝ} (hv : ∀ x, 0 ≤ x → SolveLoop.Spec.SqrtAt v.sqrt x) (hexp : v.exp = Real.exp)
    (ht : Lmi.Spec.TriEigenvalues v.tri) (hs : ∀ n, MatrixExp.Spec.Solves (v.solve n)) {p : Iteration.Setup ℝ}
    {duals : List (List Nat)} {X : Nat → Iteration.State ℝ} {ST : Nat → Iteration.Step ℝ} (hr : Ready p duals (X 0))
    (hsame : SameUpdate (X 0).es) (hcost : NoCosts (X 0).es) {k : ℝ}
    (hX : ∀ l, Iteration.iterate v p k (X l) = .ok (some (ST l, X (l + 1))))
    (hb : ∀ n, 2 < (ST n).normsqrd →
      ∀ e ∈ (X n).es, Short (k * p.cs) (SolveLoop.stepSize (ST n).norm) (unknowns e (ST n).y) e.item)
    {z : Nat → ℝ} (hz : Central (X 0).es p.N (fun u => k * p.bs * p.b u) (k * p.cs) z) :
    ∀ n, Ready p duals (X n) ∧ Cones (X 0).es (X n).es ∧ SameUpdate (X n).es ∧
      Central (X n).es p.N (fun u => k * p.bs * p.b u) (k * p.cs) z := by
  intro n
  induction n with
  | zero => exact ⟨hr, ⟨hcost, Gap.SameProg.refl _⟩, hsame, hz⟩
  | succ n ih =>
    obtain ⟨h1, h2, h3, h4⟩ := ih
    have hshort : ∀ e ∈ (X n).es, Short (k * p.cs) (SolveLoop.stepSize (ST n).norm) (unknowns e (ST n).y) e.item := by
      obtain ⟨-, -, -, -, es', -, -, -, -, -, -, -, h10, -⟩ := Iteration.iterate_ok (hX n)
      by_cases h11 : (ST n).normsqrd ≤ 2
      · exact C97_short_sum v hv hexp ht p.N _ es' h1.good _ _ _ _ h10 h11
      · exact hb n (not_le.1 h11)
    obtain ⟨h10, h11⟩ := iterate_decrease hv hexp ht hs h1 h3 (hX n) hshort h4
    exact ⟨h10, ⟨noCosts_next h2.1 (hX n), h2.2.trans h11.same⟩, h11.update, h11.central⟩

theorem real_start {P : Program ℝ} (h : RealCones P.es) : RealCones (startEs P) := by
  intro e he d m hd o w hx
  obtain ⟨e', he', rfl⟩ := List.mem_map.1 he
  have := h e' he'
  cases hi : e'.item <;> rw [hi] at this <;> simp only [hi, Whole.setIdentity] at hx <;>
    first | exact this _ _ _ _ _ rfl | cases hx

theorem same_start {P : Program ℝ} (h : SameUpdate P.es) : SameUpdate (startEs P) := by
  refine h.imp real_start fun h e he => ?_
  obtain ⟨e', he', rfl⟩ := List.mem_map.1 he
  rcases h e' he' with ⟨d, m, hd, o, w, hi⟩ | ⟨n, Q, hi⟩
  · exact Or.inl ⟨d, m, hd, o, HermLmi.setIdentity w, by simp only [hi, Whole.setIdentity]⟩
  · exact Or.inr ⟨n, Q, by simp only [hi, Whole.setIdentity]⟩

theorem costs_start {P : Program ℝ} (h : NoCosts P.es) : NoCosts (startEs P) := by
  intro e he n Q hx
  obtain ⟨e', he', rfl⟩ := List.mem_map.1 he
  have := h e' he'
  cases hi : e'.item <;> rw [hi] at this <;> simp only [hi, Whole.setIdentity] at hx <;>
    first | exact this _ _ rfl | cases hx

/-- A solve with matrix inequalities, from the identity. -/
theorem matrices_start {v : Env ℝ} (ht : Lmi.Spec.TriEigenvalues v.tri) (hs : ∀ n, MatrixExp.Spec.Solves (v.solve n))
    (hst : Starts v) {l : Whole.Linear ℝ} (hl : Dense.Spec.LltContract l.llt)
    (hc : Dense.Spec.LltComplete l.llt) (hqr : l.useQr = false) {P : Program ℝ} (hP : Spec.ConeProgram P)
    (hsame : SameUpdate P.es) (hcost : NoCosts P.es) (hquad : P.quadratic = false) (hrank : 1 ≤ rank P.es)
    {S : Search ℝ} (hS : 0 < S.factor) (hsmall : S.factor * rank P.es ≤ 1 / 32) {cfg : SolveLoop.Config ℝ} {F : Nat} {τ : ℝ}
    (hO : Opts v cfg false cfg.invSqrtMuMax F (2 * (S.factor * rank P.es) ^ 2)) (hline : cfg.lineSearch = false)
    (hlow : 1 / 24000 ≤ SolveLoop.kMin v.sqrt cfg) (hlt : SolveLoop.kMin v.sqrt cfg < cfg.invSqrtMuMax)
    (hτ : 0 ≤ τ) (hτS : 16 * τ ^ 2 ≤ S.factor)
    (hthr : 1 / cfg.invSqrtMuMax ^ 2 ≤ cfg.infeasThreshold)
    (hclose : 1 / 2 * (1 / 2) ^ 2 ^ F ≤ 2 * (S.factor * rank P.es) ^ 2)
    {y : Nat → ℝ} {X : Nat → Point} {w : Nat → ℝ} (hI : Strict (startEs P) P.m P.b 1 y X w)
    {μ ν : ℝ} (hμ : 0 < μ) (hν : 0 < ν) (hX : ∀ i < P.es.length, DualAbove μ (nth (startEs P) i).item (X i))
    (hy : ∀ i < P.es.length, SlackAbove ν (nth (startEs P) i).item (nth (startEs P) i).vars.length 1
      (unknowns (nth (startEs P) i) y))
    (hinit : 40 * ((rank P.es + cfg.invSqrtMuMax ^ 2 * products (startEs P) 1 y X) *
      (1 / (SolveLoop.kMin v.sqrt cfg * μ) + 1 / (SolveLoop.kMin v.sqrt cfg * ν)) - 2 * rank P.es) + 1 + F ≤ cfg.initCold)
    (hpos : 0 < cfg.initCold)
    (hfirst : ∀ kkt f solver d, Sup.kktInit (P.es.map Entry.vars) P.duals = .ok kkt →
      Iteration.factorize v (setupOf l P kkt) ⟨startEs P, P.sys, l.mat⟩ = .ok f → f.solver = some solver →
      divergenceMu v S (setupOf l P kkt) (startEs P) f.r solver = .ok d → d < cfg.invSqrtMuMax)
    (hb : ∀ kkt k, Sup.kktInit (P.es.map Entry.vars) P.duals = .ok kkt → SolveLoop.kMin v.sqrt cfg ≤ k → k < cfg.invSqrtMuMax →
      ∀ (X : Nat → Iteration.State ℝ) (ST : Nat → Iteration.Step ℝ) (n : Nat), X 0 = ⟨startEs P, P.sys, l.mat⟩ →
      (∀ j ≤ n, Iteration.iterate v (setupOf l P kkt) k (X j) = .ok (some (ST j, X (j + 1)))) → 2 < (ST n).normsqrd →
      ∀ e ∈ (X n).es, Short k (SolveLoop.stepSize (ST n).norm) (unknowns e (ST n).y) e.item)
    {J : Nat} (hJ : cfg.invSqrtMuMax ≤ (1 + τ) ^ J * SolveLoop.kMin v.sqrt cfg)
    (hiter : cfg.initCold + J ≤ cfg.maxIter - cfg.finalSteps) (status : SolveLoop.Status) :
    ∃ r z, Whole.solveSearch v l S P cfg status = .ok r ∧ r.res.ret = true ∧
      r.res.final = some (cfg.invSqrtMuMax, cfg.invSqrtMuMax) ∧ r.array = some z ∧ Gap.Spec.Feasible P.es z ∧
      ∀ z', Gap.Spec.Feasible P.es z' → value P z ≤ value P z' + rank P.es / cfg.invSqrtMuMax ^ 2 := by
  have he := hO.expPos
  have hmin := hO.min
  have hrs : rank (startEs P) = rank P.es := rank_start P
  have hlen : (startEs P).length = P.es.length := by simp [startEs, Whole.identity]
  have hN := (start_ready hP hl hc hqr).1
  refine matrices_solve ht hs hst hl hc hqr hP hcost hquad hrank hS hsmall hO hline hlow hτ hτS hthr hpos
    (fun kkt hk hr hcs f solver d k hf hsol hd hkt hk1 hk2 => ?_) hJ hiter status
  have hk0 : 0 < k := hmin.trans_le hk1
  have hkK : k < cfg.invSqrtMuMax := by
    have h1 := hfirst kkt f solver d hk hf hsol hd
    rw [hkt, nextK, if_pos rfl]
    have h2 : ∀ a, a < cfg.invSqrtMuMax →
        SolveLoop.applyLimits a (SolveLoop.kMin v.sqrt cfg) cfg.invSqrtMuMax < cfg.invSqrtMuMax := fun a ha => by
      unfold SolveLoop.applyLimits
      simp only
      rw [if_neg (not_lt.2 ha.le)]
      split_ifs
      · exact hlt
      · exact ha
    split_ifs
    · exact h2 _ h1
    · exact h2 _ (by linarith)
  have hsame' := same_start hsame
  have hsh := conicShape_of hr
  have hb' : ∀ (X : Nat → Iteration.State ℝ) (ST : Nat → Iteration.Step ℝ) (n : Nat), X 0 = ⟨startEs P, P.sys, l.mat⟩ →
      (∀ j ≤ n, Iteration.iterate v (scaled (setupOf l P kkt) 1 1) k (X j) = .ok (some (ST j, X (j + 1)))) →
      2 < (ST n).normsqrd → ∀ e ∈ (X n).es,
        Short (k * (scaled (setupOf l P kkt) 1 1).cs) (SolveLoop.stepSize (ST n).norm) (unknowns e (ST n).y) e.item :=
    fun X ST n h1 h2 h3 => by
      have e : k * (scaled (setupOf l P kkt) 1 1).cs = k := mul_one k
      rw [e]
      exact hb kkt k hk hk1 hkK X ST n h1 h2 h3
  have hI' : Strict (startEs P) (scaled (setupOf l P kkt) 1 1).N (scaled (setupOf l P kkt) 1 1).b 1 y X w := by
    show Strict (startEs P) P.N P.b 1 y X w
    rw [hN]
    exact hI
  obtain ⟨z, hz⟩ := (C98_central (scaled (setupOf l P kkt) 1 1) one_pos one_pos P.duals _ hr k hk0).1.2 ⟨y, X, w, hI'⟩
  obtain ⟨Y, ST, f1, f2, f3⟩ := C98_iterations v hO.sqrt hO.exp ht hs (scaled (setupOf l P kkt) 1 1) one_pos one_pos P.duals
    ⟨startEs P, P.sys, l.mat⟩ hr hsame' k hk0 hb' y X w hI' μ ν hμ hν (fun i hi => hX i (hlen ▸ hi)) fun i hi => hy i (hlen ▸ hi)
  have hrun := run_ready hO.sqrt hO.exp ht hs (X := Y) (ST := ST) (by rw [f1]; exact hr) (by rw [f1]; exact hsame')
    (by rw [f1]; exact hcs) f2 (fun n h => hb' Y ST n f1 (fun j _ => f2 j) h) (z := z) (by rw [f1]; exact hz)
  refine ⟨Y, ST, f1, f2, fun j => Or.inr ⟨hkK, (hrun (j + 1)).1, ?_⟩, ((f3 F cfg.initCold.toNat ?_).2.1).trans hclose⟩
  · have := (hrun (j + 1)).2.1
    rw [f1] at this
    exact this
  · have e5 : ((cfg.initCold.toNat : Nat) : ℝ) = (cfg.initCold : ℝ) := by
      have : ((cfg.initCold.toNat : Nat) : Int) = cfg.initCold := by omega
      exact_mod_cast this
    rw [e5]
    refine le_trans ?_ hinit
    have h1 : curvature (startEs P) P.N (fun u => k * 1 * w u - k * 1 * y u) = 0 := curvature_none hcs _ _
    have h2 := products_nonneg hsh hI'
    have h3 : k ^ 2 ≤ cfg.invSqrtMuMax ^ 2 := pow_le_pow_left₀ hk0.le hk2 2
    have h4 : ∀ {a : ℝ}, 0 < a → 1 / (k * a) ≤ 1 / (SolveLoop.kMin v.sqrt cfg * a) := fun ha =>
      one_div_le_one_div_of_le (mul_pos hmin ha) (mul_le_mul_of_nonneg_right hk1 ha.le)
    have h5 : (0 : ℝ) ≤ rank P.es := Nat.cast_nonneg _
    have h6 : (rank P.es + k ^ 2 * products (startEs P) 1 y X) * (1 / (k * μ) + 1 / (k * ν)) ≤
        (rank P.es + cfg.invSqrtMuMax ^ 2 * products (startEs P) 1 y X) *
          (1 / (SolveLoop.kMin v.sqrt cfg * μ) + 1 / (SolveLoop.kMin v.sqrt cfg * ν)) :=
      mul_le_mul (by nlinarith [mul_le_mul_of_nonneg_right h3 h2]) (add_le_add (h4 hμ) (h4 hν)) (by positivity) (by positivity)
    show 40 * ((((rank (startEs P) : Nat) : ℝ) + k ^ 2 * 1 * 1 * products (startEs P) 1 y X +
      curvature (startEs P) P.N (fun u => k * 1 * w u - k * 1 * y u) / 4) * (1 / (k * 1 * μ) + 1 / (k * 1 * ν)) -
      2 * ((rank (startEs P) : Nat) : ℝ)) + 1 + (F : ℝ) ≤ _
    rw [h1, hrs]
    simp only [mul_one, zero_div, add_zero]
    linarith

end Verif.MatrixCentering
