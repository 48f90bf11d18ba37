import Verif.Lemmas.ConeDivergence
import Verif.Lemmas.SearchSolve
import Verif.Props.ConeCentering

/-!
# Solving programs with second-order and quadratic cones (C94)
-/

namespace Verif.ConeCentering

open Finset Verif.Dual Iteration.Spec Whole.Spec Spec Spin
open Spin.Spec (IsForm Interior Cone tr smul)
open Soc (El)
open Centering.Spec (gradients curvature)
open Whole (nth_mem nth_of nth_get forall₂_nth NoCosts Search Program startEs Regime Grows Opts setupOf scaled)

/-! ### Points of the cone -/

section

variable {B : (Nat → ℝ) → (Nat → ℝ) → ℝ}

theorem cone_add (hB : IsForm B) {x y : El ℝ} (hx : Cone B x) (hy : Cone B y) : Cone B (Spin.Spec.add x y) := by
  obtain ⟨h1, h2⟩ := hx
  obtain ⟨h3, h4⟩ := hy
  refine ⟨add_nonneg h1 h3, ?_⟩
  have h5 := hB.cauchy x.t y.t
  have h6 : B x.t y.t ≤ x.h * y.h := by
    refine (abs_le.1 (abs_le_of_sq_le_sq ?_ (mul_nonneg h1 h3))).2
    rw [mul_pow]
    exact h5.trans (mul_le_mul h2 h4 (hB.nonneg _) (sq_nonneg _))
  simp only [Spin.Spec.add, hB.add, hB.add_right, hB.symm y.t x.t]
  nlinarith

/-- Larger multiples of interior points. -/
theorem below_smul (hB : IsForm B) {a k k' : ℝ} {x y : El ℝ} (h : Below B a x (smul k y)) (hk : k ≤ k') (hy : Interior B y) :
    Below B a x (smul k' y) := by
  have h1 : Cone B (smul (k' - k) y) := by
    refine ⟨mul_nonneg (by linarith) hy.1.le, ?_⟩
    simp only [smul, hB.smul, hB.smul_right]
    have := mul_le_mul_of_nonneg_left hy.2.le (sq_nonneg (k' - k))
    linarith
  have h2 := cone_add hB h h1
  have e : Spin.Spec.add ⟨(smul k y).h - a * x.h, fun l => (smul k y).t l - a * x.t l⟩ (smul (k' - k) y) =
      ⟨(smul k' y).h - a * x.h, fun l => (smul k' y).t l - a * x.t l⟩ := by
    simp only [Spin.Spec.add, smul, El.mk.injEq]
    exact ⟨by ring, by funext l; ring⟩
  rw [e] at h2
  exact h2

/-- Interior points are above multiples of one. -/
theorem below_one (hB : IsForm B) {x : El ℝ} (hx : Interior B x) {μ : ℝ} (h : μ ≤ det B x / (2 * x.h)) :
    Below B μ Spin.Spec.one x := by
  have h0 := hx.1
  rw [le_div_iff₀ (by linarith)] at h
  unfold det at h
  have e : (fun l => x.t l - μ * (Spin.Spec.one : El ℝ).t l) = x.t := by
    funext l
    simp [Spin.Spec.one]
  unfold Below
  rw [e]
  have h1 := hB.nonneg x.t
  simp only [Spin.Spec.one, mul_one]
  constructor
  · show 0 ≤ x.h - μ
    nlinarith
  · show B x.t x.t ≤ (x.h - μ) ^ 2
    nlinarith [sq_nonneg μ]

theorem inverse_one (hB : IsForm B) : inverse B (Spin.Spec.one : El ℝ) = Spin.Spec.one := by
  unfold inverse
  rw [det_one hB]
  simp only [Spin.Spec.one, div_one, neg_zero]

end

/-! ### The start -/

theorem start_kin {P : Program ℝ} (h : VectorCones P.es) {i : Nat} (hi : i < P.es.length) :
    Kin (nth P.es i).item (nth (startEs P) i).item := by
  rw [Whole.nth_start P hi]
  rcases h _ (nth_mem hi) with ⟨o, w, ho⟩ | ⟨o, w, ho⟩ | ⟨o, w, ho⟩ | ⟨n, Q, ho⟩ <;> rw [ho]
  · exact Or.inl ⟨o, _, _, rfl, rfl⟩
  · exact Or.inr (Or.inl ⟨o, _, _, rfl, rfl⟩)
  · exact Or.inr (Or.inr (Or.inl ⟨o, _, _, rfl, rfl⟩))
  · exact Or.inr (Or.inr (Or.inr ⟨n, Q, rfl, rfl⟩))

theorem alike_start {P : Program ℝ} (h : VectorCones P.es) : Alike P.es (startEs P) :=
  ⟨by simp [startEs, Whole.identity], fun i hi => by rw [Whole.nth_start P hi], fun i hi => (start_kin h hi).data⟩

theorem point_start {P : Program ℝ} (h : VectorCones P.es) {i : Nat} (hi : i < P.es.length) {r : Nat}
    (hr : r < cells (nth P.es i).item) : point (nth (startEs P) i).item r = Spin.Spec.one := by
  rw [Whole.nth_start P hi]
  rcases h _ (nth_mem hi) with ⟨o, w, ho⟩ | ⟨o, w, ho⟩ | ⟨o, w, ho⟩ | ⟨n, Q, ho⟩
  · rw [ho]
    rfl
  · rw [ho]
    rfl
  · rw [ho]
    rfl
  · rw [ho] at hr
    exact absurd hr (Nat.not_lt_zero r)

theorem cones_start {P : Program ℝ} (h : VectorCones P.es) : VectorCones (startEs P) := by
  intro e he
  obtain ⟨e', he', rfl⟩ := List.mem_map.1 he
  rcases h e' he' with ⟨o, w, ho⟩ | ⟨o, w, ho⟩ | ⟨o, w, ho⟩ | ⟨n, Q, ho⟩
  · exact Or.inl ⟨o, Linear.setIdentity w, by simp only [ho, Whole.setIdentity]⟩
  · exact Or.inr (Or.inl ⟨o, Soc.setIdentity w, by simp only [ho, Whole.setIdentity]⟩)
  · exact Or.inr (Or.inr (Or.inl ⟨o, QuadCone.setIdentity w, by simp only [ho, Whole.setIdentity]⟩))
  · exact Or.inr (Or.inr (Or.inr ⟨n, Q, by simp only [ho, Whole.setIdentity]⟩))

theorem alike_strict {es es' : List (Entry ℝ)} (h : Alike es es') {N : Nat} {g : Nat → ℝ} {c : ℝ} {y : Nat → ℝ}
    {x : Nat → Nat → El ℝ} {w : Nat → ℝ} (hI : Strict es N g c y x w) : Strict es' N g c y x w := by
  refine ⟨fun i hi r hr => ?_, fun i hi r hr => ?_, fun u hu => ?_⟩
  · rw [h.length] at hi
    rw [(h.data i hi).cells] at hr
    rw [h.slack c y hi, (h.data i hi).form]
    exact hI.primal i hi r hr
  · rw [h.length] at hi
    rw [(h.data i hi).cells] at hr
    rw [(h.data i hi).form]
    exact hI.dual i hi r hr
  · rw [h.gradients, h.image]
    exact hI.equations u hu

theorem alike_orders {es es' : List (Entry ℝ)} (h : Alike es es') : orders es' = orders es := by
  have : ∀ es, orders es = total es fun i _ => order (nth es i).item := fun _ => rfl
  rw [this, this, h.total]
  refine total_congr fun i hi r _ => ?_
  rw [order_eq, order_eq, (h.data i hi).half]

theorem alike_product {es es' : List (Entry ℝ)} (h : Alike es es') (c : ℝ) (y : Nat → ℝ) (x : Nat → Nat → El ℝ) :
    product es' c y x = product es c y x := by
  have : ∀ es, product es c y x = total es fun i r => pair (nth es i).item (x i r) (slack es c y i r) := fun _ => rfl
  rw [this, this, h.total]
  refine total_congr fun i hi r _ => ?_
  rw [(h.data i hi).pair, h.slack c y hi]

/-- The distance of the start from the central points, uniformly, without costs. -/
theorem start_distance {P : Program ℝ} (hp : VectorCones P.es) (hcost : NoCosts P.es) {p : Iteration.Setup ℝ}
    {duals : List (List Nat)} {x₀ : Iteration.State ℝ} (hx₀ : x₀.es = startEs P) (hr : Ready p duals x₀) {y : Nat → ℝ}
    {x : Nat → Nat → El ℝ} {w : Nat → ℝ} (hI : Strict P.es p.N p.b 1 y x w) {kMin K μ ν : ℝ} (hmin : 0 < kMin) (hμ : 0 < μ)
    (hν : 0 < ν)
    (hx : ∀ i < P.es.length, ∀ r < cells (nth P.es i).item,
      Below (form (nth P.es i).item) μ Spin.Spec.one (smul kMin (x i r)))
    (hy : ∀ i < P.es.length, ∀ r < cells (nth P.es i).item,
      Below (form (nth P.es i).item) ν Spin.Spec.one (smul kMin (slack P.es 1 y i r))) {k : ℝ} (hk : kMin ≤ k)
    (hK : k ≤ K) : ∃ z, Central x₀.es p.N (fun u => k * p.b u) k z ∧ 0 ≤ distance x₀.es k z ∧
      distance x₀.es k z ≤ (orders P.es + K ^ 2 * product P.es 1 y x) * (1 / μ + 1 / ν) - 2 * orders P.es := by
  have ha := alike_start hp
  rw [← hx₀] at ha
  have hp₀ : VectorCones x₀.es := hx₀ ▸ cones_start hp
  obtain ⟨hs, hw⟩ := shape_of hr hp₀
  have hI₀ := alike_strict ha hI
  have hk0 : 0 < k := hmin.trans_le hk
  obtain ⟨h1, h2, h3⟩ := strict_scale hs hI₀ hk0 hk0
  obtain ⟨z, hz⟩ := central_exists hs hr.determined h1
  have hd := interior_distance hs h1 hz hμ hν (fun i hi r hr' => by
      have hB := (hs.kind i hi).form
      rw [ha.length] at hi
      rw [(ha.data i hi).cells] at hr'
      rw [(ha.data i hi).form] at hB ⊢
      rw [hx₀, point_start hp hi hr']
      exact below_smul hB (hx i hi r hr') hk (hI.dual i hi r hr')) fun i hi r hr' => by
    have hB := (hs.kind i hi).form
    rw [ha.length] at hi
    rw [(ha.data i hi).cells] at hr'
    rw [(ha.data i hi).form] at hB ⊢
    rw [h2, ha.slack 1 y hi, hx₀, point_start hp hi hr', inverse_one hB]
    exact below_smul hB (hy i hi r hr') hk (hI.primal i hi r hr')
  rw [h3] at hd
  have h4 : curvature x₀.es p.N (fun u => k * w u - k * y u) = 0 := by
    unfold curvature
    refine sum_eq_zero fun u _ => ?_
    rw [ha.gradients, gradients_none hp hcost, mul_zero]
  rw [h4, alike_orders ha, alike_product ha] at hd
  refine ⟨z, hz, distance_nonneg hs hw hz.interior, hd.trans (sub_le_sub_right (mul_le_mul_of_nonneg_right ?_ (by positivity)) _)⟩
  have h5 : 0 ≤ product P.es 1 y x := sum_nonneg fun i hi => sum_nonneg fun r hr' => by
    have hi := mem_range.1 hi
    have hr' := mem_range.1 hr'
    have hB : IsForm (form (nth P.es i).item) := by
      rw [← (ha.data i hi).form]
      exact (hs.kind i (ha.length ▸ hi)).form
    rw [pair_eq]
    have g1 := hI.dual i hi r hr'
    have g2 := hI.primal i hi r hr'
    exact mul_nonneg (half_pos _).le (tr_nonneg hB ⟨g1.1.le, g1.2.le⟩ ⟨g2.1.le, g2.2.le⟩)
  have h7 : k ^ 2 ≤ K ^ 2 := pow_le_pow_left₀ hk0.le hK 2
  nlinarith [mul_le_mul_of_nonneg_right h7 h5]

/-! ### The loop -/

/-- Linear inequalities, second-order and quadratic cones, of rank `n`. -/
def Cones (n : ℝ) (es : List (Entry ℝ)) : Prop := VectorCones es ∧ NoCosts es ∧ orders es = n

theorem cones_next {v : Env ℝ} (hv : ∀ x, 0 ≤ x → SolveLoop.Spec.SqrtAt v.sqrt x) (hexp : v.exp = Real.exp)
    {p : Iteration.Setup ℝ} {duals : List (List Nat)} {n : ℝ} {k : ℝ} {x x' : Iteration.State ℝ} {st : Iteration.Step ℝ}
    (hr : Ready p duals x) (hI : Cones n x.es) (h : Iteration.iterate v p k x = .ok (some (st, x'))) : Cones n x'.es := by
  have he : ∀ x, 0 < v.exp x := fun x => hexp ▸ Real.exp_pos x
  obtain ⟨hp, hc, hn⟩ := hI
  obtain ⟨⟨q, h1⟩, h2⟩ := iterated hv hexp hr hp h (Centering.unregularized hv he hr h)
  refine ⟨h2, fun e he' m Q hx => ?_, (alike_orders h1.alike).trans hn⟩
  obtain ⟨-, -, -, -, es', -, -, -, -, -, -, -, h3, h4, -⟩ := Iteration.iterate_ok h
  obtain ⟨h5, h6⟩ := forall₂_nth (Gap.prepare_take x.es h3 h4)
  obtain ⟨hs, hw⟩ := shape_of hr hp
  obtain ⟨i, hi⟩ := List.getElem?_of_mem he'
  have hlt := (List.getElem?_eq_some_iff.1 hi).1
  rw [h5] at hlt
  obtain ⟨-, x₁, a, b, g2, g3⟩ := h6 i hlt
  have := nth_of hi
  subst this
  obtain ⟨f1, -⟩ := item_step hv hexp (hs.kind i hlt) (hw i hlt) g2 g3
  rcases f1 with ⟨o, w, w', -, e2⟩ | ⟨o, w, w', -, e2⟩ | ⟨o, w, w', -, e2⟩ | ⟨m', Q', e1, -⟩
  · rw [e2] at hx
    cases hx
  · rw [e2] at hx
    cases hx
  · rw [e2] at hx
    cases hx
  · exact hc _ (nth_mem hlt) _ _ e1

theorem norm_abs {es es' : List (Entry ℝ)} {N : Nat} {g : Nat → ℝ} {c : ℝ} {y : Nat → ℝ} {A B : ℝ} {q : Nat → Nat → ℝ}
    (h : Iterated es es' N g c y A B q) (hn : 1 ≤ orders es) : 0 ≤ A ∧ A ^ 2 ≤ B := by
  have h1 : ∃ i < es.length, 0 < cells (nth es i).item := by
    by_contra hcon
    push Not at hcon
    have : orders es = 0 := sum_eq_zero fun i hi => by
      rw [Nat.le_zero.1 (hcon i (mem_range.1 hi)), range_zero, sum_empty]
    linarith
  obtain ⟨i, hi, hr⟩ := h1
  obtain ⟨z, d, a, h2, -, h3⟩ := h.step i hi 0 hr
  have h4 := (prepared_nonneg h2).1.trans h3
  refine ⟨h4, ?_⟩
  rcases h.attained with h5 | h5
  · linarith
  · rw [sq]
    exact h5

theorem cones_regime {v : Env ℝ} (hv : ∀ x, 0 ≤ x → SolveLoop.Spec.SqrtAt v.sqrt x) (hexp : v.exp = Real.exp)
    (hs : ∀ n, MatrixExp.Spec.Solves (v.solve n)) (S : Search ℝ) (p : Iteration.Setup ℝ) (hbs : 0 < p.bs) (hcs : 0 < p.cs)
    (duals : List (List Nat)) (quadratic : Bool) {n : ℝ} (hn : 1 ≤ n) :
    Regime v S p duals quadratic (Cones n) fun _ => True := by
  have he : ∀ x, 0 < v.exp x := fun x => hexp ▸ Real.exp_pos x
  refine ⟨fun x f solver hr hI hf hsol => divergenceMu_ok hv hr hI.1 hf hsol, fun _ _ => trivial,
    fun x x' st k hr hI h _ => (Iteration.ready_next hv he hs hr h (Centering.unregularized hv he hr h) fun e he' hd =>
      absurd hd (not_dense hI.1 e he')).1,
    fun x x' st k hr hI h _ => cones_next hv hexp hr hI h, fun hq x x' st k tol hr hI hk htol h => ?_,
    fun x x' st k hr hI h _ => ?_, fun x x' x'' st st' k hr hI h hr' h' hst => ?_⟩
  · refine Whole.stepError_le hv he hr hI.2.1 (fun e he' o ho => ?_) hk hbs hcs h htol
    rcases hI.1 e he' with ⟨o', w, ho'⟩ | ⟨o', w, ho'⟩ | ⟨o', w, ho'⟩ | ⟨m, Q, ho'⟩ <;> rw [ho] at ho' <;> cases ho'
  · obtain ⟨q, h1⟩ := (iterated hv hexp hr hI.1 h (Centering.unregularized hv he hr h)).1
    exact ⟨iterated_nonneg h1, (norm_abs h1 (hI.2.2 ▸ hn)).2⟩
  · obtain ⟨⟨q, h1⟩, h2⟩ := iterated hv hexp hr hI.1 h (Centering.unregularized hv he hr h)
    obtain ⟨q', h3⟩ := (iterated hv hexp hr' h2 h' (Centering.unregularized hv he hr' h')).1
    have h4 := iterated_quadratic h1 h3 (iterated_le_one h1 hst)
    nlinarith [mul_le_mul_of_nonneg_right (norm_abs h1 (hI.2.2 ▸ hn)).2 (iterated_nonneg h1)]

/-- The divergence makes progress. -/
theorem divergence_grows {v : Env ℝ} (hv : ∀ x, 0 ≤ x → SolveLoop.Spec.SqrtAt v.sqrt x) (hexp : v.exp = Real.exp)
    (hs : ∀ n, MatrixExp.Spec.Solves (v.solve n)) {S : Search ℝ} (hS : 0 < S.factor) {n : ℝ} (hsmall : S.factor * n ≤ 1 / 32)
    (hn : 1 ≤ n) {τ : ℝ} (hτ : 0 ≤ τ) (hτS : 16 * τ ^ 2 ≤ S.factor) {cfg : SolveLoop.Config ℝ}
    (hline : cfg.lineSearch = false) (hmin : 1 / 24000 ≤ SolveLoop.kMin v.sqrt cfg) (K : ℝ) (p : Iteration.Setup ℝ)
    (duals : List (List Nat)) : Grows v S p duals cfg false (Cones n) (fun _ => True) K τ (2 * (S.factor * n) ^ 2) := by
  intro x x' st k f solver a t i hr hI hk1 hk2 h0 hst hf hsol ha hcand
  have he : ∀ x, 0 < v.exp x := fun x => hexp ▸ Real.exp_pos x
  obtain ⟨hp, hc, hcount⟩ := id hI
  have hk : 1 / 24000 ≤ k := hmin.trans hk1
  have hkpos : 0 < k := lt_of_lt_of_le (by norm_num) hk
  obtain ⟨d, g1, g2, g3⟩ := divergence_grow hv hexp hr hp hc (by rw [hcount]; exact hn) hS (by rw [hcount]; exact hsmall) hτ hτS
    hf hsol hk h0 (by rw [hcount]; exact hst)
  have ha2 : a.2 = d := by
    simp only [Whole.chosenMu, Whole.searchIf, hline, Bool.and_false, Bool.false_eq_true, if_false, Whole.divergenceIf,
      Outcome.bind_ok] at ha
    rw [if_pos (by norm_num), g1] at ha
    simp only [Outcome.bind_ok, Outcome.ok.injEq] at ha
    rw [← ha]
  have ht : t = d := by
    unfold SolveLoop.candidate at hcand
    simp only [hline, Bool.false_eq_true, if_false, Whole.answers, ha2] at hcand
    rw [if_pos (by norm_num), Option.some.injEq] at hcand
    exact hcand.symm
  subst ht
  refine ⟨(min_le_left _ _).trans g2, fun k' h1 h2 st₁ x₁ e1 => ⟨trivial, fun st₂ x₂ e2 => ?_⟩⟩
  have hkk : k ≤ k' := (le_min (by nlinarith) hk2).trans h1
  have h3 := g3 k' hkk h2 _ _ e1
  rw [hcount] at h3
  have hR := cones_regime hv hexp hs S (scaled p 1 1) one_pos one_pos duals false hn
  have h4 := hR.ready _ _ _ _ hr hI e1 trivial
  have h5 := hR.quadratic _ _ _ _ _ _ hr hI e1 h4 e2 (by linarith)
  have h6 := (hR.norm _ _ _ _ hr hI e1 trivial).1
  nlinarith

/-- A solve with linear inequalities, second-order and quadratic cones. -/
theorem cones_converges {v : Env ℝ} {l : Whole.Linear ℝ} (hl : Dense.Spec.LltContract l.llt)
    (hc : Dense.Spec.LltComplete l.llt) (hqr : l.useQr = false) {P : Program ℝ} (hP : VectorProgram P)
    (hp : VectorCones P.es) (hcost : NoCosts P.es)
    {y : Nat → ℝ} {x : Nat → Nat → El ℝ} {w : Nat → ℝ} (hI : Strict P.es P.m P.b 1 y x w)
    {S : Search ℝ} {cfg : SolveLoop.Config ℝ} {F : Nat} {ε τ : ℝ}
    (hs : ∀ n, MatrixExp.Spec.Solves (v.solve n)) (hO : Opts v cfg P.quadratic cfg.invSqrtMuMax F ε)
    (hclose : 1 / 2 * (1 / 2) ^ 2 ^ F ≤ ε) (hrows : 1 ≤ orders P.es) (hτ : 0 ≤ τ)
    (hG : ∀ kkt, Grows v S (setupOf l P kkt) P.duals cfg P.quadratic (Cones (orders P.es)) (fun _ => True) cfg.invSqrtMuMax τ ε)
    (hmu : 0 < 1 / 10 ^ 15 + cfg.maximumMu) (htol' : cfg.finalTol ≤ 1)
    (hthr : 1 / cfg.invSqrtMuMax ^ 2 ≤ cfg.infeasThreshold)
    {μ ν : ℝ} (hμ : 0 < μ) (hν : 0 < ν)
    (hx : ∀ i < P.es.length, ∀ r < cells (nth P.es i).item,
      Below (form (nth P.es i).item) μ Spin.Spec.one (smul (SolveLoop.kMin v.sqrt cfg) (x i r)))
    (hy : ∀ i < P.es.length, ∀ r < cells (nth P.es i).item,
      Below (form (nth P.es i).item) ν Spin.Spec.one (smul (SolveLoop.kMin v.sqrt cfg) (slack P.es 1 y i r)))
    (hinit : 40 * ((orders P.es + cfg.invSqrtMuMax ^ 2 * product P.es 1 y x) * (1 / μ + 1 / ν) - 2 * orders P.es) + 1 + F ≤
      cfg.initCold)
    {J : Nat} (hJ : cfg.invSqrtMuMax ≤ (1 + τ) ^ J * SolveLoop.kMin v.sqrt cfg)
    (hiter : cfg.initCold + J ≤ cfg.maxIter - cfg.finalSteps) (status : SolveLoop.Status) :
    ∃ r z, Whole.solveSearch v l S P cfg status = .ok r ∧ r.res.ret = true ∧
      r.res.final = some (cfg.invSqrtMuMax, cfg.invSqrtMuMax) ∧ r.array = some z ∧ Gap.Spec.Feasible P.es z ∧
      ∀ z', Gap.Spec.Feasible P.es z' → value P z ≤ value P z' + rank P.es / cfg.invSqrtMuMax ^ 2 := by
  have he := hO.expPos
  have hK : 0 < cfg.invSqrtMuMax := hO.min.trans_le hO.max
  obtain ⟨hN, kkt, hk, hr, -⟩ := Whole.start_ready hP hl hc hqr
  have hdist : ∀ kkt, Ready (setupOf l P kkt) P.duals ⟨startEs P, P.sys, l.mat⟩ → ∀ k, SolveLoop.kMin v.sqrt cfg ≤ k →
      k ≤ cfg.invSqrtMuMax → ∃ z, Central (startEs P) P.N (fun u => k * P.b u) k z ∧ 0 ≤ distance (startEs P) k z ∧
        40 * distance (startEs P) k z + 1 + F ≤ cfg.initCold := by
    intro kkt hr k hk1 hk2
    obtain ⟨z, h1, h2, h3⟩ := start_distance hp hcost (x₀ := ⟨startEs P, P.sys, l.mat⟩) rfl hr (y := y) (x := x) (w := w) (by
      show Strict P.es P.N P.b 1 y x w
      rw [hN]
      exact hI) hO.min hμ hν hx hy hk1 hk2
    refine ⟨z, h1, h2, ?_⟩
    have h5 : distance (startEs P) k z ≤ (orders P.es + cfg.invSqrtMuMax ^ 2 * product P.es 1 y x) * (1 / μ + 1 / ν) -
      2 * orders P.es := h3
    linarith
  have hpos : 0 < cfg.initCold := by
    obtain ⟨z, -, h1, h2⟩ := hdist kkt hr _ le_rfl hO.max
    have h3 : (0 : ℝ) ≤ F := Nat.cast_nonneg F
    have : (0 : ℝ) < cfg.initCold := by linarith
    exact_mod_cast this
  refine Whole.solve_converges hl hc hqr hP hs hO hclose (fun kkt => cones_regime hO.sqrt hO.exp hs S _ one_pos one_pos _ _ hrows)
    ⟨cones_start hp, fun e he' n Q hx => ?_, alike_orders (alike_start hp)⟩ hτ hG hmu htol' hthr hpos
    (fun kkt hr k hk1 hk2 => ?_) hJ hiter status
  · obtain ⟨e', he'', rfl⟩ := List.mem_map.1 he'
    rcases hp e' he'' with ⟨o, w, ho⟩ | ⟨o, w, ho⟩ | ⟨o, w, ho⟩ | ⟨n', Q', ho⟩
    · simp only [ho, Whole.setIdentity] at hx
      cases hx
    · simp only [ho, Whole.setIdentity] at hx
      cases hx
    · simp only [ho, Whole.setIdentity] at hx
      cases hx
    · exact hcost e' he'' _ _ ho
  · obtain ⟨z, h1, -, h2⟩ := hdist kkt hr k hk1 hk2
    obtain ⟨X, ST, e1, e2, -, -, e3⟩ := C92_centering v hO.sqrt hO.exp hs (scaled (setupOf l P kkt) 1 1)
      P.duals ⟨startEs P, P.sys, l.mat⟩ (Whole.ready_scaled hr 1 1) (cones_start hp) k z (by simpa [scaled] using h1)
    have e5 : ((cfg.initCold.toNat : Nat) : ℝ) = (cfg.initCold : ℝ) := by
      have : ((cfg.initCold.toNat : Nat) : Int) = cfg.initCold := by omega
      exact_mod_cast this
    exact ⟨X, ST, e1, e2, (e3 F cfg.initCold.toNat (by
      rw [e5]
      simpa [scaled] using h2)).2⟩

end Verif.ConeCentering
