import Verif.Lemmas.WholeDual
import Verif.Spec.WholeDual
import Verif.Props.DualVariables
import Mathlib.Analysis.SpecialFunctions.Exponential

/-!
# Lemmas for C86: dual variables of linear programs
-/

namespace Verif.Whole

open Finset Dual Iteration.Spec Spec

/-! ### The exponential update -/

/-- After a full step, `x = w (1 + d)` differs from the new scaling point by a second-order term. -/
theorem exp_step {d : ℝ} (h : |d| ≤ 1) : ((1 + d) / Real.exp d - 1) ^ 2 ≤ d ^ 2 * d ^ 2 := by
  obtain ⟨h1, h2⟩ := abs_le.1 h
  have hp := Real.exp_pos d
  have h3 : (1 + d) / Real.exp d ≤ 1 := by
    rw [div_le_one hp]
    linarith [Real.add_one_le_exp d]
  have h4 : 1 - d ^ 2 ≤ (1 + d) / Real.exp d := by
    rw [div_eq_mul_inv, ← Real.exp_neg]
    have := Real.add_one_le_exp (-d)
    nlinarith
  nlinarith

/-- The product of the slack with the new scaling point. -/
theorem exp_slack {d : ℝ} (h : |d| ≤ 1) : 0 ≤ (1 - d) * Real.exp d ∧ (1 - d) * Real.exp d ≤ 1 := by
  obtain ⟨h1, h2⟩ := abs_le.1 h
  have hp := Real.exp_pos d
  refine ⟨mul_nonneg (by linarith) hp.le, ?_⟩
  have h3 := Real.add_one_le_exp (-d)
  calc (1 - d) * Real.exp d ≤ Real.exp (-d) * Real.exp d := mul_le_mul_of_nonneg_right (by linarith) hp.le
    _ = 1 := by rw [← Real.exp_add]; simp

/-! ### Images and inner products -/

theorem pairing {es : List (Entry ℝ)} {N : Nat} (hg : ∀ e ∈ es, e.vars.Nodup ∧ (∀ v ∈ e.vars, v < N) ∧
    (con e.item).m = e.vars.length) (x : Nat → Nat → ℝ) (y : Nat → ℝ) :
    ∑ u ∈ range N, y u * balance es x u = ∑ i ∈ range es.length, ∑ r ∈ range (con (nth es i).item).n,
      x i r * ∑ j ∈ range (con (nth es i).item).m, (con (nth es i).item).A r j * y ((nth es i).vars.getD j 0) := by
  unfold balance
  simp only [mul_sum]
  rw [sum_comm]
  refine sum_congr rfl fun i hi => ?_
  have hi := mem_range.1 hi
  have hmem : nth es i ∈ es := by
    unfold nth
    rw [List.getD_eq_getElem?_getD, List.getElem?_eq_getElem hi]
    exact List.getElem_mem hi
  obtain ⟨h1, h2, h3⟩ := hg _ hmem
  rw [Gap.sum_ventry h1 h2, ← h3]
  simp only [mul_sum]
  rw [sum_comm]
  exact sum_congr rfl fun r _ => sum_congr rfl fun j _ => by ring

/-- Among all `w (1 + u)` with a given image, those with `u = w A y` have the least norm of `u`. -/
theorem projection {es : List (Entry ℝ)} {N : Nat} (hg : ∀ e ∈ es, e.vars.Nodup ∧ (∀ v ∈ e.vars, v < N) ∧
    (con e.item).m = e.vars.length) {w u f : Nat → Nat → ℝ} {y : Nat → ℝ}
    (hu : ∀ i < es.length, ∀ r < (con (nth es i).item).n, u i r = w i r *
      ∑ j ∈ range (con (nth es i).item).m, (con (nth es i).item).A r j * y ((nth es i).vars.getD j 0))
    (he : ∀ z < N, balance es (fun i r => w i r * (1 + u i r)) z = balance es (fun i r => w i r * (1 + f i r)) z) :
    ∑ i ∈ range es.length, ∑ r ∈ range (con (nth es i).item).n, u i r ^ 2 ≤
      ∑ i ∈ range es.length, ∑ r ∈ range (con (nth es i).item).n, f i r ^ 2 := by
  have h1 := pairing hg (fun i r => w i r * (1 + u i r)) y
  have h2 := pairing hg (fun i r => w i r * (1 + f i r)) y
  rw [sum_congr rfl fun z hz => by rw [he z (mem_range.1 hz)]] at h1
  rw [h2] at h1
  have key : ∀ t : Nat → Nat → ℝ, ∑ i ∈ range es.length, ∑ r ∈ range (con (nth es i).item).n,
      w i r * (1 + t i r) * ∑ j ∈ range (con (nth es i).item).m,
        (con (nth es i).item).A r j * y ((nth es i).vars.getD j 0) =
      ∑ i ∈ range es.length, ∑ r ∈ range (con (nth es i).item).n, (1 + t i r) * u i r := by
    intro t
    refine sum_congr rfl fun i hi => sum_congr rfl fun r hr => ?_
    rw [hu i (mem_range.1 hi) r (mem_range.1 hr)]
    ring
  rw [key, key] at h1
  have h3 : ∑ i ∈ range es.length, ∑ r ∈ range (con (nth es i).item).n, (f i r * u i r - u i r ^ 2) = 0 := by
    have : ∀ i r, f i r * u i r - u i r ^ 2 = (1 + f i r) * u i r - (1 + u i r) * u i r := fun i r => by ring
    simp only [this, sum_sub_distrib]
    linarith
  have h4 : 0 ≤ ∑ i ∈ range es.length, ∑ r ∈ range (con (nth es i).item).n, (f i r - u i r) ^ 2 :=
    sum_nonneg fun i _ => sum_nonneg fun r _ => sq_nonneg _
  have h5 : ∑ i ∈ range es.length, ∑ r ∈ range (con (nth es i).item).n, (f i r - u i r) ^ 2 =
      ∑ i ∈ range es.length, ∑ r ∈ range (con (nth es i).item).n, f i r ^ 2 -
      ∑ i ∈ range es.length, ∑ r ∈ range (con (nth es i).item).n, u i r ^ 2 -
      2 * ∑ i ∈ range es.length, ∑ r ∈ range (con (nth es i).item).n, (f i r * u i r - u i r ^ 2) := by
    simp only [mul_sum, ← sum_sub_distrib]
    exact sum_congr rfl fun i _ => sum_congr rfl fun r _ => by ring
  rw [h3] at h5
  linarith

/-- One term of a double sum of squares. -/
theorem term_le {n : Nat} {m : Nat → Nat} {u : Nat → Nat → ℝ} {i r : Nat} (hi : i < n) (hr : r < m i) :
    u i r ^ 2 ≤ ∑ i ∈ range n, ∑ r ∈ range (m i), u i r ^ 2 :=
  (single_le_sum (f := fun r => u i r ^ 2) (fun r _ => sq_nonneg _) (mem_range.2 hr)).trans
    (single_le_sum (f := fun i => ∑ r ∈ range (m i), u i r ^ 2)
      (fun i _ => sum_nonneg fun r _ => sq_nonneg _) (mem_range.2 hi))

/-! ### Constraints by index -/

theorem nth_get {es : List (Entry ℝ)} {i : Nat} (h : i < es.length) : es[i]? = some (nth es i) := by
  unfold nth
  rw [List.getD_eq_getElem?_getD, List.getElem?_eq_getElem h, Option.getD_some]

theorem nth_mem {es : List (Entry ℝ)} {i : Nat} (h : i < es.length) : nth es i ∈ es :=
  List.mem_of_getElem? (nth_get h)

theorem nth_of {es : List (Entry ℝ)} {i : Nat} {e : Entry ℝ} (h : es[i]? = some e) : nth es i = e := by
  have := nth_get (List.getElem?_eq_some_iff.1 h).1
  rw [h, Option.some.injEq] at this
  exact this.symm

theorem forall₂_nth {T : Entry ℝ → Entry ℝ → Prop} {es es' : List (Entry ℝ)} (h : List.Forall₂ T es es') :
    es'.length = es.length ∧ ∀ i < es.length, T (nth es i) (nth es' i) := by
  refine ⟨h.length_eq.symm, ?_⟩
  induction h with
  | nil => intro i hi; simp at hi
  | @cons a b l l' h1 _ ih =>
    intro i hi
    cases i with
    | zero => simpa [nth] using h1
    | succ i =>
      have := ih i (by simpa using hi)
      simpa [nth] using this

/-- The scaling point of a linear inequality. -/
def scal : Item ℝ → Nat → ℝ
  | .linear _ w => w.W
  | _ => fun _ => 0

/-- The same linear inequalities, with other scaling points. -/
structure Same (es es' : List (Entry ℝ)) : Prop where
  length : es'.length = es.length
  vars : ∀ i < es.length, (nth es' i).vars = (nth es i).vars
  lin : ∀ i < es.length, ∃ w, (nth es' i).item = .linear (con (nth es i).item) w

theorem Same.con {es es' : List (Entry ℝ)} (h : Same es es') {i : Nat} (hi : i < es.length) :
    con (nth es' i).item = con (nth es i).item := by
  obtain ⟨w, hw⟩ := h.lin i hi
  rw [hw]
  rfl

theorem Same.trans {es es' es'' : List (Entry ℝ)} (h : Same es es') (h' : Same es' es'') : Same es es'' := by
  refine ⟨h'.length.trans h.length, fun i hi => ?_, fun i hi => ?_⟩
  · rw [h'.vars i (h.length ▸ hi), h.vars i hi]
  · rw [← h.con hi]
    exact h'.lin i (h.length ▸ hi)

theorem Same.balance {es es' : List (Entry ℝ)} (h : Same es es') (x : Nat → Nat → ℝ) (u : Nat) :
    balance es' x u = balance es x u := by
  unfold Spec.balance
  rw [h.length]
  refine sum_congr rfl fun i hi => ?_
  rw [h.vars i (mem_range.1 hi), h.con (mem_range.1 hi)]

/-- All constraints are linear inequalities with rows. -/
def Lin (es : List (Entry ℝ)) : Prop := ∀ i < es.length, ∃ o w, (nth es i).item = .linear o w ∧ 0 < o.n

theorem Same.rows {es es' : List (Entry ℝ)} (h : Same es es') (hl : Lin es) : Lin es' := by
  intro i hi
  rw [h.length] at hi
  obtain ⟨w, hw⟩ := h.lin i hi
  obtain ⟨o, w', ho, hn⟩ := hl i hi
  refine ⟨_, w, hw, ?_⟩
  rw [ho]
  exact hn

/-- The direction of a linear inequality. -/
noncomputable def dirAt (es : List (Entry ℝ)) (c : ℝ) (y : Nat → ℝ) (i r : Nat) : ℝ :=
  Linear.Spec.dir (con (nth es i).item) (scal (nth es i).item) c 1 (fun j => y ((nth es i).vars.getD j 0)) r

/-- A step. -/
theorem linear_step {v : Env ℝ} {c size : ℝ} {N : Nat} {y : Nat → ℝ} {es es' es'' : List (Entry ℝ)} {A B : ℝ}
    (hl : Lin es) (hm : ∀ i < es.length, (con (nth es i).item).m = (nth es i).vars.length)
    (hp : Dual.prepareStep v c N y es = .ok (es', A, B)) (ht : Dual.takeStep v size es' = .ok es'') :
    Same es es'' ∧
    (∀ i < es.length, ∀ r, scal (nth es'' i).item r = scal (nth es i).item r * v.exp (size * dirAt es c y i r)) ∧
    (∀ i < es.length, ∀ r < (con (nth es i).item).n, |dirAt es c y i r| ≤ A) ∧
    B = ∑ i ∈ range es.length, ∑ r ∈ range (con (nth es i).item).n, dirAt es c y i r ^ 2 := by
  obtain ⟨h1, h2⟩ := forall₂_nth (Gap.prepare_take es hp ht)
  obtain ⟨-, β, h3, h4⟩ := Gap.prepareLoop_inv es hp
  have key : ∀ i < es.length, (nth es'' i).vars = (nth es i).vars ∧
      (∃ w, (nth es'' i).item = .linear (con (nth es i).item) w) ∧
      (∀ r, scal (nth es'' i).item r = scal (nth es i).item r * v.exp (size * dirAt es c y i r)) ∧
      (∀ r < (con (nth es i).item).n, |dirAt es c y i r| ≤ A) ∧
      β i = ∑ r ∈ range (con (nth es i).item).n, dirAt es c y i r ^ 2 := by
    intro i hi
    obtain ⟨h5, x', n, b, h6, h7⟩ := h2 i hi
    obtain ⟨x₁, n₁, h8, h9⟩ := h4 i _ (nth_get hi)
    rw [h6, Outcome.ok.injEq, Prod.mk.injEq, Prod.mk.injEq] at h8
    obtain ⟨rfl, rfl, rfl⟩ := h8
    obtain ⟨o, w, ho, hn⟩ := hl i hi
    have hmi := hm i hi
    have e1 : con (nth es i).item = o := by rw [ho]; rfl
    have e2 : scal (nth es i).item = w.W := by rw [ho]; rfl
    unfold dirAt
    rw [e1] at hmi ⊢
    rw [e2]
    rw [ho] at h6
    obtain ⟨w', a, b', f1, f2, f3, -, f4⟩ := Linear.C35_step v.exp o hn (opt := ⟨false, c, 1, size⟩) rfl hmi.le
      (fun j => y ((nth es i).vars.getD j 0)) w
    have f1' : Linear.prepareStep v.exp o ⟨false, c, 1, 1⟩ (nth es i).vars.length
        (fun j => y ((nth es i).vars.getD j 0)) w = .ok (w', some (a, b')) := f1
    simp only [Item.prepareStep, f1', Outcome.bind_ok, Outcome.ok.injEq, Prod.mk.injEq] at h6
    obtain ⟨rfl, rfl, h6⟩ := h6
    simp only [Item.takeStep, Outcome.ok.injEq] at h7
    refine ⟨h5, ⟨_, h7.symm⟩, fun r => ?_, fun r hr => (f2.2 r hr).trans (h9 a rfl), h6 ▸ f3⟩
    rw [← h7]
    exact f4 r
  refine ⟨⟨h1, fun i hi => (key i hi).1, fun i hi => (key i hi).2.1⟩, fun i hi => (key i hi).2.2.1,
    fun i hi => (key i hi).2.2.2.1, ?_⟩
  rw [h3, zero_add]
  exact sum_congr rfl fun i hi => (key i (mem_range.1 hi)).2.2.2.2

/-- The preparation of dual variables. -/
theorem linear_dual {v : Env ℝ} {t : ℝ} {N : Nat} {y : Nat → ℝ} {es es' : List (Entry ℝ)} (hl : Lin es)
    (hm : ∀ i < es.length, (con (nth es i).item).m = (nth es i).vars.length)
    (h : Dual.prepareDual v.sqrt v.exp t N y es = .ok es') :
    Same es es' ∧ ∀ i < es.length, ∀ r, scal (nth es' i).item r = scal (nth es i).item r *
      (1 + scal (nth es i).item r * ∑ j ∈ range (con (nth es i).item).m, (con (nth es i).item).A r j *
        y ((nth es i).vars.getD j 0)) := by
  have hf : List.Forall₂ (fun e e' => e'.vars = e.vars ∧
      e.item.prepareDual v.sqrt v.exp t e.vars.length (fun j => y (e.vars.getD j 0)) = .ok e'.item) es es' := by
    clear hl hm
    induction es generalizing es' with
    | nil =>
      simp only [Dual.prepareDual, Outcome.ok.injEq] at h
      subst h
      exact .nil
    | cons e es ih =>
      simp only [Dual.prepareDual, SolveLoop.bind_eq_ok, Outcome.ok.injEq] at h
      obtain ⟨z, h1, x, h2, l, h3, rfl⟩ := h
      refine .cons ⟨rfl, ?_⟩ (ih h3)
      unfold gather at h1
      split_ifs at h1
      rw [Outcome.ok.injEq] at h1
      subst h1
      exact h2
  obtain ⟨h1, h2⟩ := forall₂_nth hf
  have key : ∀ i < es.length, (∃ w, (nth es' i).item = .linear (con (nth es i).item) w) ∧
      ∀ r, scal (nth es' i).item r = scal (nth es i).item r *
      (1 + scal (nth es i).item r * ∑ j ∈ range (con (nth es i).item).m, (con (nth es i).item).A r j *
        y ((nth es i).vars.getD j 0)) := by
    intro i hi
    obtain ⟨-, h3⟩ := h2 i hi
    obtain ⟨o, w, ho, -⟩ := hl i hi
    have hmi := hm i hi
    have e1 : con (nth es i).item = o := by rw [ho]; rfl
    have e2 : scal (nth es i).item = w.W := by rw [ho]; rfl
    rw [e1] at hmi ⊢
    rw [e2]
    rw [ho] at h3
    simp only [Item.prepareDual, Linear.prepareStep, if_true, Linear.negativeSlack, hmi, lt_irrefl, if_false,
      Outcome.bind_ok, Outcome.ok.injEq] at h3
    refine ⟨⟨_, h3.symm⟩, fun r => ?_⟩
    rw [← h3]
    simp only [scal, Linear.takeStep, if_true, Linear.affineUpdate, mul_zero, sub_zero, hmi]
    ring
  exact ⟨⟨h1, fun i hi => (h2 i hi).1, fun i hi => (key i hi).1⟩, fun i hi => (key i hi).2⟩

/-! ### The two dual points -/

theorem ventry_congr {L : List Nat} {f g : Nat → ℝ} (h : ∀ j < L.length, f j = g j) (u : Nat) :
    Sup.Spec.ventry L f u = Sup.Spec.ventry L g u := by
  unfold Sup.Spec.ventry
  by_cases hu : u ∈ L
  · rw [if_pos hu, if_pos hu, h _ (List.idxOf_lt_length_of_mem hu)]
  · rw [if_neg hu, if_neg hu]

theorem good_rows {es : List (Entry ℝ)} {N : Nat} (hg : ∀ e ∈ es, Gap.Spec.Good e N) (hl : Lin es) :
    ∀ i < es.length, (con (nth es i).item).m = (nth es i).vars.length := by
  intro i hi
  obtain ⟨o, w, ho, -⟩ := hl i hi
  have := (hg _ (nth_mem hi)).2.2
  rw [ho] at this ⊢
  exact this.1

theorem good_pairing {es : List (Entry ℝ)} {N : Nat} (hg : ∀ e ∈ es, Gap.Spec.Good e N) (hl : Lin es) :
    ∀ e ∈ es, e.vars.Nodup ∧ (∀ v ∈ e.vars, v < N) ∧ (con e.item).m = e.vars.length := by
  intro e he
  obtain ⟨i, hi⟩ := List.getElem?_of_mem he
  have h := good_rows hg hl i (List.getElem?_eq_some_iff.1 hi).1
  rw [nth_of hi] at h
  exact ⟨(hg e he).1, (hg e he).2.1, h⟩

theorem good_pos {es : List (Entry ℝ)} {N : Nat} (hg : ∀ e ∈ es, Gap.Spec.Good e N) (hl : Lin es) :
    ∀ i < es.length, ∀ r < (con (nth es i).item).n, 0 < scal (nth es i).item r := by
  intro i hi
  obtain ⟨o, w, ho, -⟩ := hl i hi
  have := (hg _ (nth_mem hi)).2.2
  rw [ho] at this ⊢
  exact this.2

/-- The dual point of an iteration satisfies the dual equations. -/
theorem newton_balance {v : Env ℝ} {p : Iteration.Setup ℝ} {duals : List (List Nat)} {x x' : Iteration.State ℝ}
    (hr : Ready p duals x) (hl : Lin x.es) {k : ℝ} {st : Iteration.Step ℝ}
    (h : Iteration.iterate v p k x = .ok (some (st, x'))) (hu : Unregularized st) :
    ∀ u < p.N, balance x.es (fun i r => scal (nth x.es i).item r * (1 + dirAt x.es (k * p.cs) st.y i r)) u =
      k * p.bs * p.b u := by
  intro u hu'
  obtain ⟨⟨s, -, h1, h2, -⟩, -⟩ := Iteration.iterate_values hr.built (fun e he => (hr.good e he).1) hr.sized h hu
  have h3 := Gap.system_res (fun e he => ⟨(hr.good e he).1, (hr.good e he).2.1⟩) (h2 u hu')
  rw [← h3]
  unfold balance
  refine sum_congr rfl fun i hi => ?_
  have hi := mem_range.1 hi
  have hm := good_rows hr.good hl i hi
  obtain ⟨o, w, ho, -⟩ := hl i hi
  have hv : (x.es.map Entry.vars).getD i [] = (nth x.es i).vars := by
    rw [List.getD_eq_getElem?_getD, List.getElem?_map, nth_get hi]
    rfl
  rw [hv]
  refine ventry_congr (fun j hj => ?_) u
  obtain ⟨s₀, g1, g2⟩ := h1 i _ (nth_get hi)
  have e1 : con (nth x.es i).item = o := by rw [ho]; rfl
  have e2 : scal (nth x.es i).item = w.W := by rw [ho]; rfl
  unfold dirAt
  beta_reduce
  rw [e1] at hm ⊢
  rw [e2]
  rw [ho] at g2
  have := Gap.linear_res (g1.trans hm.symm) g2 (k * p.cs) (fun j => st.y ((nth x.es i).vars.getD j 0)) j (by omega)
  rw [← hm]
  refine Eq.trans ?_ this.symm
  refine sum_congr rfl fun r _ => ?_
  unfold Linear.Spec.dir
  ring

/-- The dual variables that were prepared satisfy the dual equations. -/
theorem dual_balance {es : List (Entry ℝ)} (hl : Lin es) (u : Nat) :
    Dual.Spec.dualSum es u = balance es (fun i => scal (nth es i).item) u := by
  unfold Dual.Spec.dualSum balance
  rw [Gap.list_sum]
  refine sum_congr rfl fun i hi => ?_
  have hi := mem_range.1 hi
  obtain ⟨o, w, ho, -⟩ := hl i hi
  rw [nth_get hi, Option.map_some, Option.getD_some]
  beta_reduce
  rw [ho]
  rfl

/-- The preparation of dual variables after a solve of a linear program. -/
theorem prepared_balance {v : Env ℝ} (hv : ∀ x, 0 ≤ x → SolveLoop.Spec.SqrtAt v.sqrt x)
    {p : Iteration.Setup ℝ} {duals : List (List Nat)} {x : Iteration.State ℝ} (hr : Ready p duals x) (hl : Lin x.es)
    {k t : ℝ} {es : List (Entry ℝ)} (h : prepareDuals v p k t x = .ok (some es)) :
    Same x.es es ∧ (∃ y : Nat → ℝ, ∀ i < x.es.length, ∀ r, scal (nth es i).item r = scal (nth x.es i).item r *
      (1 + scal (nth x.es i).item r * ∑ j ∈ range (con (nth x.es i).item).m, (con (nth x.es i).item).A r j *
        y ((nth x.es i).vars.getD j 0))) ∧
    ∀ u < p.N, balance x.es (fun i => scal (nth es i).item) u = k * p.b u * p.bs := by
  obtain ⟨f, solver, y, s, h1, h2, h3, h4, h5⟩ := dual_system hv hr k
  unfold prepareDuals at h
  simp only [h1, Outcome.bind_ok, h2, h3, SolveLoop.bind_eq_ok, Outcome.ok.injEq, Option.some.injEq] at h
  obtain ⟨es', h6, rfl⟩ := h
  have hm := good_rows hr.good hl
  obtain ⟨h7, h8⟩ := linear_dual hl hm h6
  refine ⟨h7, ⟨y, h8⟩, fun u hu => ?_⟩
  classical
  have hc : ∀ i, ∃ s₀ : Schur.Sys ℝ, ∀ e : Entry ℝ, x.es[i]? = some e →
      s₀.rows = e.vars.length ∧ e.item.schur v.sqrt s₀ = .ok (s i) := by
    intro i
    cases he : x.es[i]? with
    | none => exact ⟨s 0, fun e h => by cases h⟩
    | some e =>
      obtain ⟨s₀, h⟩ := h4 i e he
      exact ⟨s₀, fun e' h' => by cases h'; exact h⟩
  choose s₀ hc using hc
  obtain ⟨es'', h9, h10⟩ := Dual.C56_feasible_partial v.sqrt v.exp t p.N y (fun u => k * p.b u * p.bs) x.es
    (fun e he => by
      obtain ⟨i, hi⟩ := List.getElem?_of_mem he
      obtain ⟨o, w, ho, -⟩ := hl i (List.getElem?_eq_some_iff.1 hi).1
      have h3 := (good_pairing hr.good hl e he).2.2
      rw [nth_of hi] at ho
      refine ⟨(hr.good e he).1, (hr.good e he).2.1, ?_⟩
      rw [ho] at h3 ⊢
      exact h3) s₀ s (fun i e he => (hc i e he).1) (fun i e he => (hc i e he).2) h5
  rw [h6, Outcome.ok.injEq] at h9
  subst h9
  rw [← h10 u hu ?_, dual_balance (h7.rows hl), h7.balance]
  intro e he
  obtain ⟨i, hi⟩ := List.getElem?_of_mem he
  obtain ⟨o, w, ho, -⟩ := hl i (List.getElem?_eq_some_iff.1 hi).1
  rw [nth_of hi] at ho
  rw [ho]
  trivial

/-- A last direction of norm at most one, followed by the preparation of dual variables. -/
theorem certificate {v : Env ℝ} (hv : ∀ x, 0 ≤ x → SolveLoop.Spec.SqrtAt v.sqrt x) (hexp : v.exp = Real.exp)
    {p p' : Iteration.Setup ℝ} {duals : List (List Nat)} {x x' : Iteration.State ℝ} (hr : Ready p duals x)
    (hp' : p'.N = p.N ∧ p'.b = p.b ∧ p'.bs = p.bs) (hr' : Ready p' duals x') (hl : Lin x.es) {k t : ℝ}
    {st : Iteration.Step ℝ} (h : Iteration.iterate v p k x = .ok (some (st, x'))) (hu : Unregularized st)
    {es : List (Entry ℝ)} (hes : prepareDuals v p' k t x' = .ok (some es)) (hn : st.norm ≤ 1)
    (hn2 : st.norm ^ 2 * st.normsqrd ≤ 1) :
    Same x.es es ∧ (∀ i < x.es.length, ∀ r < (con (nth x.es i).item).n, 0 ≤ scal (nth es i).item r ∧
      0 ≤ Linear.Spec.slack (con (nth x.es i).item) (k * p.cs) (fun j => st.y ((nth x.es i).vars.getD j 0)) r ∧
      Linear.Spec.slack (con (nth x.es i).item) (k * p.cs) (fun j => st.y ((nth x.es i).vars.getD j 0)) r *
        scal (nth es i).item r ≤ 2) := by
  obtain ⟨-, -, -, -, es₁, -, -, -, -, -, -, -, h3, h4, -⟩ := Iteration.iterate_ok h
  have hm := good_rows hr.good hl
  have hW := good_pos hr.good hl
  obtain ⟨hS, hw', hD, hB⟩ := linear_step hl hm h3 h4
  obtain ⟨hS', ⟨y, hy⟩, hb⟩ := prepared_balance hv hr' (hS.rows hl) hes
  rw [hS.length] at hy
  have hnb := newton_balance hr hl h hu
  set D := dirAt x.es (k * p.cs) st.y with hDdef
  have hsize : ∀ i < x.es.length, SolveLoop.stepSize st.norm = 1 := by
    intro i hi
    obtain ⟨o, w, ho, hon⟩ := hl i hi
    have h0 : 0 ≤ st.norm := (abs_nonneg _).trans (hD i hi 0 (by rw [ho]; exact hon))
    unfold SolveLoop.stepSize
    by_cases hz : st.norm = 0
    · rw [if_pos hz]
    · rw [if_neg hz, if_pos]
      have : 0 < st.norm := lt_of_le_of_ne h0 (Ne.symm hz)
      rw [lt_div_iff₀ (by positivity)]
      nlinarith
  have hw : ∀ i < x.es.length, ∀ r, scal (nth x'.es i).item r = scal (nth x.es i).item r * Real.exp (D i r) := by
    intro i hi r
    rw [hw' i hi r, hsize i hi, one_mul, hexp]
  set u : Nat → Nat → ℝ := fun i r => scal (nth x'.es i).item r * ∑ j ∈ range (con (nth x.es i).item).m,
    (con (nth x.es i).item).A r j * y ((nth x.es i).vars.getD j 0) with hudef
  have hsc : ∀ i < x.es.length, ∀ r, scal (nth es i).item r = scal (nth x'.es i).item r * (1 + u i r) := by
    intro i hi r
    rw [hy i hi r, hS.con hi, hS.vars i hi]
  have hproj := projection (es := x.es) (N := p.N) (good_pairing hr.good hl)
    (w := fun i => scal (nth x'.es i).item) (u := u)
    (f := fun i r => (1 + D i r) / Real.exp (D i r) - 1) (y := y) (fun i _ r _ => rfl) ?_
  · have hle : ∑ i ∈ range x.es.length, ∑ r ∈ range (con (nth x.es i).item).n,
        ((1 + D i r) / Real.exp (D i r) - 1) ^ 2 ≤ st.norm ^ 2 * st.normsqrd := by
      rw [hB, mul_sum]
      refine sum_le_sum fun i hi => ?_
      rw [mul_sum]
      refine sum_le_sum fun r hr => ?_
      have hd := hD i (mem_range.1 hi) r (mem_range.1 hr)
      refine (exp_step (hd.trans hn)).trans (mul_le_mul_of_nonneg_right ?_ (sq_nonneg _))
      exact sq_le_sq' (neg_le_of_abs_le hd) (le_of_abs_le hd)
    have hu1 : ∀ i < x.es.length, ∀ r < (con (nth x.es i).item).n, |u i r| ≤ 1 := by
      intro i hi r hr
      have := (term_le (u := u) (m := fun i => (con (nth x.es i).item).n) hi hr).trans ((hproj.trans hle).trans hn2)
      exact abs_le_one_iff_mul_self_le_one.2 (by nlinarith)
    refine ⟨hS.trans hS', fun i hi r hr => ?_⟩
    have hd := (hD i hi r hr).trans hn
    obtain ⟨g1, g2⟩ := exp_slack hd
    obtain ⟨g3, g4⟩ := abs_le.1 (hu1 i hi r hr)
    obtain ⟨g5, g6⟩ := abs_le.1 hd
    have hWr := hW i hi r hr
    set S := Linear.Spec.slack (con (nth x.es i).item) (k * p.cs) (fun j => st.y ((nth x.es i).vars.getD j 0)) r
      with hSdef
    have hDS : D i r = 1 - scal (nth x.es i).item r * S := rfl
    rw [hsc i hi r, hw i hi r]
    refine ⟨mul_nonneg (mul_nonneg hWr.le (Real.exp_pos _).le) (by linarith), ?_, ?_⟩
    · exact nonneg_of_mul_nonneg_right (by linarith : 0 ≤ scal (nth x.es i).item r * S) hWr
    · have : S * (scal (nth x.es i).item r * Real.exp (D i r) * (1 + u i r)) =
          ((1 - D i r) * Real.exp (D i r)) * (1 + u i r) := by
        rw [hDS]
        ring
      rw [this]
      nlinarith
  · intro z hz
    have e1 := hb z (hp'.1 ▸ hz)
    rw [hS.balance, hp'.2.1, hp'.2.2] at e1
    have e2 := hnb z hz
    have c1 : balance x.es (fun i r => scal (nth x'.es i).item r * (1 + u i r)) z =
        balance x.es (fun i => scal (nth es i).item) z := by
      unfold balance
      refine sum_congr rfl fun i hi => ventry_congr (fun j _ => sum_congr rfl fun r _ => ?_) z
      beta_reduce
      rw [hsc i (mem_range.1 hi) r]
    have c2 : balance x.es (fun i r => scal (nth x'.es i).item r * (1 + ((1 + D i r) / Real.exp (D i r) - 1))) z =
        balance x.es (fun i r => scal (nth x.es i).item r * (1 + D i r)) z := by
      unfold balance
      refine sum_congr rfl fun i hi => ventry_congr (fun j _ => sum_congr rfl fun r _ => ?_) z
      beta_reduce
      rw [hw i (mem_range.1 hi) r]
      have := (Real.exp_pos (D i r)).ne'
      field_simp
      ring
    rw [c1, c2, e1, e2]
    ring

/-! ### A whole solve -/

theorem start_same {P : Program ℝ} (hP : LinearProgram P) : Same P.es (startEs P) := by
  have hf : List.Forall₂ (fun e e' : Entry ℝ => e'.vars = e.vars ∧ ∃ w, e'.item = .linear (con e.item) w) P.es
      (startEs P) := by
    unfold startEs identity
    rw [List.forall₂_map_right_iff, List.forall₂_same]
    intro e he
    obtain ⟨o, w, ho⟩ := hP e he
    refine ⟨rfl, Linear.setIdentity w, ?_⟩
    rw [ho]
    rfl
  obtain ⟨h1, h2⟩ := forall₂_nth hf
  exact ⟨h1, fun i hi => (h2 i hi).1, fun i hi => (h2 i hi).2⟩

theorem lin_of {P : Program ℝ} (hP : LinearProgram P) (hV : VectorProgram P) : Lin P.es := by
  intro i hi
  obtain ⟨o, w, ho⟩ := hP _ (nth_mem hi)
  have := (hV.data _ (nth_mem hi)).2.2
  rw [ho] at this
  exact ⟨o, w, ho, this.2⟩

/-- The constraints remain the same. -/
theorem run_same {v : Env ℝ} {p : Iteration.Setup ℝ} {duals : List (List Nat)} {k : Nat → ℝ}
    {X : Nat → Iteration.State ℝ} {ST : Nat → Iteration.Step ℝ} {es : List (Entry ℝ)} (hl : Lin es)
    (h0 : Same es (X 0).es) {n : Nat}
    (hs : ∀ l < n, Iteration.iterate v p (k l) (X l) = .ok (some (ST l, X (l + 1))))
    (hr : ∀ l ≤ n, Ready p duals (X l)) : ∀ l ≤ n, Same es (X l).es := by
  intro l
  induction l with
  | zero => exact fun _ => h0
  | succ l ih =>
    intro hn
    have h := ih (by omega)
    obtain ⟨-, -, -, -, es₁, -, -, -, -, -, -, -, h3, h4, -⟩ := Iteration.iterate_ok (hs l (by omega))
    have hl' := h.rows hl
    exact h.trans (linear_step hl' (good_rows (hr l (by omega)).good hl') h3 h4).1

/-- The two norms of the last direction of a solve of a linear program. -/
theorem norm_bound {v : Env ℝ} (hv : ∀ x, 0 ≤ x → SolveLoop.Spec.SqrtAt v.sqrt x) (he : ∀ x, 0 < v.exp x)
    (hs : ∀ n, MatrixExp.Spec.Solves (v.solve n)) {l : Linear ℝ} (hl : Dense.Spec.LltContract l.llt)
    (hc : Dense.Spec.LltComplete l.llt) (hqr : l.useQr = false) {P : Program ℝ} (hP : VectorProgram P)
    (hlin : LinearProgram P) {cfg : SolveLoop.Config ℝ} (hmode : cfg.mode = 0)
    (hmu : 0 ≤ 1 / 10 ^ 15 + cfg.maximumMu) (hsteps : 0 < cfg.finalSteps) (hmax : 0 < cfg.maxIter)
    (hq : P.quadratic = false ∨ (cfg.lineSearch = true ∧ cfg.rescaling = false)) {status : SolveLoop.Status}
    {c : SolveLoop.Oracle ℝ} {r : Result ℝ} {st : Iteration.Step ℝ} (h : solve v l P cfg status c = .ok r)
    (hst : r.last = some st) : st.normsqrd ≤ rank P.es * st.norm ^ 2 := by
  obtain ⟨kkt, q, j, bs, cs, k, X, ST, res, es, h2, hr, hm, hN, -, hsol, h5, h4, hret⟩ :=
    solve_ok hv he hs hl hc hqr hP hmode hmu hsteps hmax hq status c
  obtain ⟨-, hkj, hlast, -⟩ := h2.last j rfl
  rw [hsol, Outcome.ok.injEq] at h
  subst h
  rw [hlast, Option.some.injEq] at hst
  subst hst
  have hready := fun l hl => (inv_ready hv he hs h2 hr hm l hl).1
  have hL := lin_of hlin hP
  have hsj := run_same hL (h2.zero ▸ start_same hlin) h2.steps hready j (by omega)
  have hLj := hsj.rows hL
  obtain ⟨-, -, -, -, es₁, -, -, -, -, -, -, -, g3, g4, -⟩ := Iteration.iterate_ok (h2.steps j (by omega))
  obtain ⟨-, -, hD, hB⟩ := linear_step hLj (good_rows (hready j (by omega)).good hLj) g3 g4
  have hrank : (rank P.es : ℝ) * (ST j).norm ^ 2 = ∑ i ∈ range P.es.length,
      ∑ r ∈ range (con (nth P.es i).item).n, (ST j).norm ^ 2 := by
    rw [Gap.rank_eq, Gap.list_sum, sum_mul]
    refine sum_congr rfl fun i hi => ?_
    obtain ⟨o, w, ho⟩ := hlin _ (nth_mem (mem_range.1 hi))
    rw [nth_get (mem_range.1 hi)]
    simp only [Option.map_some, Option.getD_some, ho, Item.rank, con, sum_const, card_range, nsmul_eq_mul]
  rw [hB, hrank, hsj.length]
  refine sum_le_sum fun i hi => ?_
  rw [hsj.con (mem_range.1 hi)]
  refine sum_le_sum fun r hr => ?_
  have := hD i (hsj.length.symm ▸ mem_range.1 hi) r (by rw [hsj.con (mem_range.1 hi)]; exact mem_range.1 hr)
  exact sq_le_sq' (neg_le_of_abs_le this) (le_of_abs_le this)

/-- The gap between a point and a solution of the dual equations. -/
theorem duality_gap {P : Program ℝ} (hP : LinearProgram P) (hV : VectorProgram P) {x : Nat → Nat → ℝ}
    (hx : DualEquations P x) (z : Nat → ℝ) : value P z + dualValue P x =
      ∑ i ∈ range P.es.length, ∑ r ∈ range (con (nth P.es i).item).n, x i r *
        ((con (nth P.es i).item).c r - ∑ j ∈ range (con (nth P.es i).item).m,
          (con (nth P.es i).item).A r j * z ((nth P.es i).vars.getD j 0)) := by
  have hq : (P.es.map fun e => Gap.Spec.quadCost (fun j => z (e.vars.getD j 0)) e.item).sum = 0 := by
    refine List.sum_eq_zero fun a ha => ?_
    obtain ⟨e, he, rfl⟩ := List.mem_map.1 ha
    obtain ⟨o, w, ho⟩ := hP e he
    rw [ho]
    rfl
  have hg : ∀ e ∈ P.es, e.vars.Nodup ∧ (∀ v ∈ e.vars, v < P.m) ∧ (con e.item).m = e.vars.length := by
    intro e he
    obtain ⟨o, w, ho⟩ := hP e he
    obtain ⟨h1, h2, h3⟩ := hV.data e he
    rw [ho] at h3 ⊢
    exact ⟨h1, h2, h3.1⟩
  have hc : ∑ u ∈ range P.m, P.cost u * z u = -∑ u ∈ range P.m, z u * balance P.es x u := by
    rw [← sum_neg_distrib]
    refine sum_congr rfl fun u hu => ?_
    rw [hx u (mem_range.1 hu)]
    ring
  unfold value dualValue
  rw [hq, add_zero, hc, pairing hg, neg_add_eq_sub, ← sum_sub_distrib]
  refine sum_congr rfl fun i _ => ?_
  rw [← sum_sub_distrib]
  exact sum_congr rfl fun r _ => by ring

/-- Weak duality. -/
theorem weak_duality {P : Program ℝ} (hP : LinearProgram P) (hV : VectorProgram P) {x : Nat → Nat → ℝ}
    (hx : DualEquations P x) (h0 : Nonnegative P x) {z : Nat → ℝ} (hz : Gap.Spec.Feasible P.es z) :
    -dualValue P x ≤ value P z := by
  have h := duality_gap hP hV hx z
  have : 0 ≤ value P z + dualValue P x := by
    rw [h]
    refine sum_nonneg fun i hi => sum_nonneg fun r hr => mul_nonneg (h0 i (mem_range.1 hi) r (mem_range.1 hr)) ?_
    have hs := hz _ (nth_mem (mem_range.1 hi))
    obtain ⟨o, w, ho⟩ := hP _ (nth_mem (mem_range.1 hi))
    rw [ho] at hs hr ⊢
    exact sub_nonneg.2 (hs r (mem_range.1 hr))
  linarith

/-- Reading the dual variables. -/
theorem reads_of {P : Program ℝ} {es : List (Entry ℝ)} (h : Same P.es es) {prog : SolveLoop.Prog ℝ}
    (h1 : prog.status.primalInf = false) {s : ℝ} (h2 : dualScale prog.stats = .ok s) :
    Reads P es prog fun i r => scal (nth es i).item r / s := by
  intro i hi
  obtain ⟨w, hw⟩ := h.lin i hi
  have hi' : i < es.length := h.length.symm ▸ hi
  have hf := Dual.find_some (nth_get hi')
  unfold readDual
  rw [if_neg (by simp [h1, hf]), h2]
  simp only [Outcome.bind_ok]
  unfold Dual.getDual
  have hsz : getDualSize es i = (con (nth P.es i).item).n := by
    simp only [getDualSize, hf, hw, Item.dualSize]
  rw [if_neg (by rw [hsz]; simp), hf]
  simp only [hw, Item.dual, Outcome.bind_ok, Bool.false_eq_true, if_false, scal, List.map_map, Function.comp_def,
    Option.map_some]

theorem balance_div (es : List (Entry ℝ)) (x : Nat → Nat → ℝ) (s : ℝ) (u : Nat) :
    balance es (fun i r => x i r / s) u = balance es x u / s := by
  unfold balance
  rw [sum_div]
  refine sum_congr rfl fun i _ => ?_
  unfold Sup.Spec.ventry
  by_cases h : u ∈ (nth es i).vars
  · rw [if_pos h, if_pos h, sum_div]
    exact sum_congr rfl fun r _ => by ring
  · rw [if_neg h, if_neg h, zero_div]

/-! ### Options for which every solve succeeds -/

/-- The largest `inv_sqrt_mu` is 1/2 and the smallest about 1; four iterations, one of them for final centering; the
dual variables are prepared. -/
noncomputable def forced : SolveLoop.Config ℝ :=
  ⟨true, 0, 1 / 2, 1, false, 1, 1 / 100, 0, 0, 2, 4, 10 ^ 5, 10 ^ 10, false⟩

/-- The smallest `inv_sqrt_mu`. -/
theorem forced_kMin {sqrt : ℝ → ℝ} (hv : ∀ x, 0 ≤ x → SolveLoop.Spec.SqrtAt sqrt x) :
    1 / 2 < SolveLoop.kMin sqrt forced ∧ SolveLoop.overThreshold forced (SolveLoop.kMin sqrt forced) = false := by
  obtain ⟨h1, h2⟩ := hv (1 / (1 / 10 ^ 15 + 1)) (by norm_num)
  have hk : SolveLoop.kMin sqrt forced = sqrt (1 / (1 / 10 ^ 15 + 1)) := rfl
  rw [hk]
  set κ := sqrt (1 / (1 / 10 ^ 15 + 1))
  have h3 : 1 / 2 < κ := by
    by_contra h
    have : κ * κ ≤ 1 / 2 * (1 / 2) := mul_self_le_mul_self h1 (not_lt.1 h)
    rw [h2] at this
    norm_num at this
  refine ⟨h3, ?_⟩
  unfold SolveLoop.overThreshold
  have h4 : κ ≠ 0 := by linarith
  have h5 : 1 / κ * (1 / κ) ≤ forced.infeasThreshold := by
    rw [div_mul_div_comm, h2]
    norm_num [forced]
  rw [decide_eq_false h4, decide_eq_false (not_lt.2 h5)]
  rfl

/-- After an iteration. -/
def Forced (κ : ℝ) (s : SolveLoop.State ℝ) : Prop :=
  s.k = κ ∧ s.kMax = 1 / 2 ∧ s.stats.cap = 4 ∧ s.stats.bScale = some 1 ∧ s.stats.cScale = some 1

theorem forced_finish {sqrt : ℝ → ℝ} {κ : ℝ} (hk : SolveLoop.kMin sqrt forced = κ) (h : 1 / 2 < κ)
    (o : SolveLoop.Oracle ℝ) {i : Nat} (hi : i < 4) (fc upd : Bool) (s : SolveLoop.State ℝ) (h1 : s.kMax = 1 / 2)
    (h2 : s.stats.cap = 4) (h3 : s.stats.bScale = some 1) (h4 : s.stats.cScale = some 1) :
    ∃ d s', SolveLoop.finish sqrt forced false o i fc upd s = .ok (d, s') ∧ Forced κ s' ∧
      s'.centering = s.centering ∧ s'.aborted = false ∧ (d = .next ∨ (d = .brk ∧ s'.maxReached = false)) := by
  have hl : SolveLoop.applyLimits s.k κ (1 / 2) = κ := by
    unfold SolveLoop.applyLimits
    by_cases h' : 1 / 2 < s.k
    · simp only [h', if_true, h]
    · have : s.k < κ := by linarith [not_lt.1 h']
      simp only [h', if_false, this, if_true]
  unfold SolveLoop.finish
  simp only [h3, h4, SolveLoop.readVar, Outcome.bind_ok, hk, h1, hl, h2]
  rw [if_neg (by omega)]
  by_cases hb : (fc || decide (1 / 2 ≤ κ)) = true ∧ |o.norm i| ≤ forced.finalTol
  · rw [if_pos hb]
    exact ⟨_, _, rfl, ⟨rfl, rfl, rfl, rfl, rfl⟩, rfl, by simp [forced], Or.inr ⟨rfl, rfl⟩⟩
  · rw [if_neg hb]
    exact ⟨_, _, rfl, ⟨rfl, rfl, rfl, rfl, rfl⟩, rfl, by simp [forced], Or.inl rfl⟩

/-- With these options a solve succeeds unless a factorization fails. -/
theorem forced_solve {sqrt : ℝ → ℝ} (hv : ∀ x, 0 ≤ x → SolveLoop.Spec.SqrtAt sqrt x) (n : Nat)
    (status : SolveLoop.Status) (o : SolveLoop.Oracle ℝ) {r : SolveLoop.Result ℝ}
    (h : SolveLoop.solve sqrt ⟨false, n + 1, false, none, status⟩ forced o = .ok r) (hf : r.final ≠ none) :
    r.ret = true ∧ ∃ kMax, r.final = some (SolveLoop.kMin sqrt forced, kMax) := by
  obtain ⟨hk, hover⟩ := forced_kMin hv
  obtain ⟨κ, hκ⟩ : ∃ κ, SolveLoop.kMin sqrt forced = κ := ⟨_, rfl⟩
  rw [hκ] at hk hover
  -- what follows the loop
  have hpost : ∀ (p : SolveLoop.Prog ℝ) (s : SolveLoop.State ℝ), s.k = κ → s.maxReached = false →
      SolveLoop.post forced p s = .ok r → r.ret = true ∧ ∃ kMax, r.final = some (SolveLoop.kMin sqrt forced, kMax) := by
    intro p s h1 h2 h3
    unfold SolveLoop.post at h3
    rw [h1, hover, h2] at h3
    simp only [SolveLoop.bind_eq_ok] at h3
    obtain ⟨a, -, b, -, h3⟩ := h3
    have h3 : Outcome.ok _ = Outcome.ok r := h3
    rw [Outcome.ok.injEq] at h3
    rw [← h3, hκ]
    exact ⟨rfl, _, rfl⟩
  -- the loop
  have hloop : ∀ d s, SolveLoop.loop sqrt forced false o 4 0
      (SolveLoop.start forced ⟨4, none, some 1, some 1, []⟩) = .ok (d, s) →
      d = .fail ∨ ((d = .brk ∨ d = .next) ∧ s.k = κ ∧ s.maxReached = false) := by
    intro d s hd
    -- an iteration
    have hbody : ∀ (i : Nat) (_ : i < 3) (s : SolveLoop.State ℝ), s.kMax = 1 / 2 → s.stats.cap = 4 →
        s.stats.bScale = some 1 → s.stats.cScale = some 1 → s.aborted = false → s.centering = 0 →
        ((i = 0 ∧ s.k = 0 ∧ s.kkt = 0) ∨ (i ≠ 0 ∧ s.k = κ)) →
        ∃ d s', SolveLoop.body sqrt forced false o i s = .ok (d, s') ∧ (d = .fail ∨ (Forced κ s' ∧
          s'.aborted = false ∧ s'.centering = (if i = 0 then 0 else 1) ∧
          (d = .next ∨ (d = .brk ∧ s'.maxReached = false)))) := by
      intro i hi s h1 h2 h3 h4 h5 h6 h7
      have hfc : SolveLoop.finalCentering forced i s = decide (i ≠ 0) := by
        unfold SolveLoop.finalCentering
        rcases h7 with ⟨rfl, h8, h9⟩ | ⟨h8, h9⟩
        · rw [h1, h8, h9]
          norm_num [forced]
        · rw [h1, h9]
          rw [decide_eq_true hk.le, decide_eq_true h8]
          rfl
      have hupd : SolveLoop.updateMu forced i s = decide (i = 0) := by
        unfold SolveLoop.updateMu
        rw [hfc, h5]
        by_cases hi0 : i = 0 <;> simp [hi0]
      unfold SolveLoop.body
      rw [hfc, hupd]
      simp only [h6]
      rw [if_neg (by simp [forced])]
      unfold SolveLoop.bodyMain SolveLoop.rescale
      rw [if_neg (by simp [forced])]
      simp only [Outcome.bind_ok]
      by_cases ho : o.factorOk i = false
      · rw [if_pos ho, if_neg (by simp [forced])]
        exact ⟨_, _, rfl, Or.inl rfl⟩
      · rw [if_neg ho]
        have hch : ∃ s₁, SolveLoop.chooseMu forced false o i (decide (i = 0))
            { s with aborted := false, centering := 0, trace := .factor i (o.factorOk i) :: s.trace } = some s₁ ∧
            s₁.kMax = 1 / 2 ∧ s₁.stats = s.stats ∧ s₁.centering = if i = 0 then 0 else 1 := by
          unfold SolveLoop.chooseMu
          by_cases hi0 : i = 0
          · simp only [hi0, decide_true, if_true, SolveLoop.candidate, forced, Bool.false_eq_true, if_false]
            rw [if_pos (by norm_num), Option.map_some]
            by_cases hd : 0 < o.divergence 0
            · rw [if_pos hd]
              exact ⟨_, rfl, h1, rfl, rfl⟩
            · rw [if_neg hd]
              exact ⟨_, rfl, h1, rfl, rfl⟩
          · have hic : SolveLoop.initialCentering forced i = false := by
              simp [SolveLoop.initialCentering, SolveLoop.initialSteps, forced]
            rw [if_neg (by simp [hi0]), if_pos hic]
            exact ⟨_, rfl, h1, rfl, by simp [hi0]⟩
        obtain ⟨s₁, e1, e2, e3, e4⟩ := hch
        rw [e1]
        obtain ⟨d, s', g1, g2, g3, g4, g5⟩ := forced_finish hκ hk o (by omega : i < 4) (decide (i ≠ 0)) (decide (i = 0))
          s₁ e2 (e3 ▸ h2) (e3 ▸ h3) (e3 ▸ h4)
        exact ⟨d, s', g1, Or.inr ⟨g2, g4, g3.trans e4, g5⟩⟩
    obtain ⟨d0, s0, b1, b2⟩ := hbody 0 (by omega) (SolveLoop.start forced ⟨4, none, some 1, some 1, []⟩) rfl rfl rfl rfl
      rfl rfl (Or.inl ⟨rfl, rfl, rfl⟩)
    unfold SolveLoop.loop at hd
    rw [b1] at hd
    simp only [Outcome.bind_ok] at hd
    rcases b2 with rfl | ⟨f1, f2, f3, rfl | ⟨rfl, f4⟩⟩
    · simp only [pure] at hd
      injection hd with hd
      injection hd with h1 h2
      exact Or.inl h1.symm
    swap
    · simp only [pure] at hd
      injection hd with hd
      injection hd with h1 h2
      exact Or.inr ⟨Or.inl h1.symm, h2 ▸ f1.1, h2 ▸ f4⟩
    · simp only [zero_add] at hd
      obtain ⟨d1, s1, b3, b4⟩ := hbody 1 (by omega) s0 f1.2.1 f1.2.2.1 f1.2.2.2.1 f1.2.2.2.2 f2 f3
        (Or.inr ⟨one_ne_zero, f1.1⟩)
      unfold SolveLoop.loop at hd
      rw [b3] at hd
      simp only [Outcome.bind_ok] at hd
      rcases b4 with rfl | ⟨g1, g2, g3, rfl | ⟨rfl, g4⟩⟩
      · simp only [pure] at hd
        injection hd with hd
        injection hd with h1 h2
        exact Or.inl h1.symm
      swap
      · simp only [pure] at hd
        injection hd with hd
        injection hd with h1 h2
        exact Or.inr ⟨Or.inl h1.symm, h2 ▸ g1.1, h2 ▸ g4⟩
      · have hb : SolveLoop.body sqrt forced false o (1 + 1) s1 =
            .ok (.brk, { s1 with aborted := false, maxReached := false }) := by
          unfold SolveLoop.body
          have : SolveLoop.finalCentering forced (1 + 1) s1 = true := by
            unfold SolveLoop.finalCentering
            rw [g1.2.1, g1.1]
            rw [decide_eq_true hk.le]
            rfl
          rw [this]
          simp only [g3]
          rw [if_pos (by simp [forced])]
          norm_num [forced]
        unfold SolveLoop.loop at hd
        rw [hb] at hd
        simp only [Outcome.bind_ok, pure] at hd
        injection hd with hd
        injection hd with h1 h2
        exact Or.inr ⟨Or.inl h1.symm, h2 ▸ g1.1, h2 ▸ rfl⟩
  unfold SolveLoop.solve at h
  rw [if_neg (by simp)] at h
  simp only [SolveLoop.clearStatus, Nat.succ_ne_zero, if_false, SolveLoop.initProgram] at h
  rw [if_pos (by simp)] at h
  simp only [SolveLoop.bind_eq_ok] at h
  obtain ⟨⟨d, s⟩, h1, h2⟩ := h
  rcases hloop d s h1 with rfl | ⟨rfl | rfl, h3, h4⟩
  · simp only [pure] at h2
    injection h2 with h2
    exact absurd (by rw [← h2]) hf
  · exact hpost _ s h3 h4 h2
  · exact hpost _ s h3 h4 h2

end Verif.Whole
