import Verif.Lemmas.Iteration
import Verif.Lemmas.KktError
import Verif.Spec.FeasibleObjective

/-!
# Lemmas for C78
-/

namespace Verif.Feasible

open Dual Finset Spec Whole

/-! ### One constraint -/

theorem identity_hermitian {d n : Nat} : Hyper.Spec.Hermitian (Hyper.identity d : HermLmi.HMat d n ℝ) := by
  intro i r c
  unfold Hyper.identity
  by_cases h : i.1 = 0
  · simp only [h, if_true, Matrix.one_apply, eq_comm]
  · simp [h]

theorem inner_identity {d n : Nat} (h0 : 0 < d) (X : HermLmi.HMat d n ℝ) :
    HermLmi.Spec.inner X (Hyper.identity d) = ∑ i, X ⟨0, h0⟩ i i := by
  unfold HermLmi.Spec.inner Hyper.identity
  rw [sum_eq_single ⟨0, h0⟩]
  · simp [Matrix.one_apply]
  · intro c _ hc
    have : c.1 ≠ 0 := fun h => hc (Fin.ext h)
    simp [this]
  · simp

theorem herm_trace {d n : Nat} [NeZero d] (hD : Hyper.Spec.Dim d) (h0 : 0 < d) {o : HermLmi.Con d n ℝ}
    (ho : HermLmi.Spec.HermitianData o) {C : HermLmi.HMat d n ℝ} (hC : o.affine = some C) {s₀ : Schur.Sys ℝ}
    (hr : s₀.rows = o.mats.length) :
    ∃ s, HermLmi.schur o (Hyper.identity d) true s₀ = .ok s ∧ ∀ z : Nat → ℝ,
      ∑ j ∈ range o.mats.length, z j * s.AW j = s.wc -
        ∑ i, HermLmi.Spec.slack o.mats (o.affine.getD fun _ => 0) 1 z ⟨0, h0⟩ i i := by
  obtain ⟨⟨s, e1, -, e3⟩, -⟩ := HermLmi.C62_schur hD o ho _ identity_hermitian C hC s₀ hr.ge
  refine ⟨s, e1, fun z => ?_⟩
  rw [e3.wc, hC, Option.getD_some, ← inner_identity, KktError.inner_slack,
    sum_congr rfl fun j hj => by rw [e3.AW j (mem_range.1 hj)]]
  ring

theorem spin_trace {B : (Nat → ℝ) → (Nat → ℝ) → ℝ} (hB : Spin.Spec.IsForm B) {m : Nat} {A : Nat → Soc.El ℝ}
    {c : Soc.El ℝ} {s : Schur.Sys ℝ}
    (h : Soc.Spec.Contributes B m A c ⟨1, fun _ => 0⟩ s.G s.AW s.AQc s.wc s.cQc) (z : Nat → ℝ) :
    ∑ j ∈ range m, z j * s.AW j = s.wc - 2 * (Spin.slackOf c A m 1 z).h := by
  have h0 : ∀ t, B t (fun _ => 0) = 0 := fun t => by
    have := hB.smul 0 t (fun _ => 0)
    rw [hB.symm]
    simpa using hB.smul 0 (fun _ => 0) t
  have h1 : ∀ x : Soc.El ℝ, Spin.Spec.tr B x ⟨1, fun _ => 0⟩ = 2 * x.h := by
    intro x
    simp [Spin.Spec.tr, Spin.Spec.mul, h0]
  have h2 := Spin.tr_slack hB c A m 1 z ⟨1, fun _ => 0⟩
  rw [h1] at h2
  rw [h2, h.wc, sum_congr rfl fun j hj => by rw [h.AW j (mem_range.1 hj)]]
  have : Spin.Spec.tr B ⟨1, fun _ => 0⟩ c = Spin.Spec.tr B c ⟨1, fun _ => 0⟩ := by
    simp only [Spin.Spec.tr, Spin.Spec.mul, hB.symm c.t, mul_comm]
  rw [this]
  ring

/-- The contribution of a constraint to the objective is a constant minus the trace of the slack. -/
theorem item_trace {sqrt : ℝ → ℝ} (hv : ∀ x, 0 ≤ x → SolveLoop.Spec.SqrtAt sqrt x) {e : Entry ℝ} {N : Nat}
    (hg : Data e N) {s₀ : Schur.Sys ℝ} (hr : s₀.rows = e.vars.length) :
    ∃ s, (setIdentity e.item).schur sqrt s₀ = .ok s ∧ ∀ z : Nat → ℝ,
      ∑ j ∈ range e.vars.length, z j * s.AW j = s.wc - trace z e.item := by
  obtain ⟨vars, x⟩ := e
  obtain ⟨-, -, h⟩ := hg
  cases x with
  | linear o w =>
    simp only at h hr
    rw [← h] at hr ⊢
    obtain ⟨s, e1, e2, e3, e4, e5⟩ := Linear.C35_schur_init o (fun _ => 1) s₀ hr.ge
    obtain ⟨s₂, g1, g2, g3⟩ := Linear.C53_inner_products_partial o (fun _ => 1) s₀ hr
    rw [e1, Outcome.ok.injEq] at g1
    subst g1
    refine ⟨s, e1, fun z => ?_⟩
    have : ∀ j ∈ range o.m, z j * s.AW j = ∑ r ∈ range o.n, o.A r j * z j := by
      intro j hj
      rw [e4 j (by rw [hr]; exact mem_range.1 hj), if_pos (mem_range.1 hj), mul_sum]
      exact sum_congr rfl fun r _ => by ring
    rw [sum_congr rfl this, sum_comm, g2]
    simp [trace]
  | lmi n o w =>
    obtain ⟨hm, ho⟩ := h
    simp only at hm hr
    rw [← hm] at hr ⊢
    obtain ⟨⟨s, e1, -, e2⟩, -⟩ := Lmi.C59_schur o ho 1 Matrix.transpose_one s₀ hr.ge
    refine ⟨s, e1, fun z => ?_⟩
    have := Gap.trace_slack o.C o.A o.m 1 z 1
    simp only [Matrix.mul_one, one_smul, one_mul] at this
    simp only [trace, this, e2.wc, Matrix.one_mul]
    rw [sum_congr rfl fun j hj => by rw [e2.AW j (mem_range.1 hj), Matrix.mul_one]]
    ring
  | hermitian d n hd o w =>
    obtain ⟨hm, h4, ho, C, hC⟩ := h
    simp only at hm hr
    rw [← hm] at hr ⊢
    exact herm_trace (Hyper.dim_of_assoc h4) _ ho hC hr
  | octonion n o w =>
    obtain ⟨hm, ho, C, hC⟩ := h
    simp only at hm hr
    rw [← hm] at hr ⊢
    exact herm_trace (.inr (.inr (.inr rfl))) _ ho hC hr
  | soc o w =>
    obtain ⟨hm, ho⟩ := h
    simp only at hm hr
    rw [← hm] at hr ⊢
    obtain ⟨⟨s, e1, -, e2⟩, -⟩ := Soc.C37_schur hv o ho ⟨1, fun _ => 0⟩ ⟨zero_le_one, by simp [Soc.dot]⟩ s₀ hr
    exact ⟨s, e1, spin_trace (Soc.dot_form _) e2⟩
  | quad o w =>
    obtain ⟨hm, ho, hB⟩ := h
    simp only at hm hr
    rw [← hm] at hr ⊢
    obtain ⟨s, e1, -, e2⟩ := QuadCone.C37_schur_partial o ho hB ⟨1, fun _ => 0⟩ s₀ hr
    exact ⟨s, e1, spin_trace hB e2⟩
  | equality o =>
    obtain ⟨hb, hm⟩ := h
    simp only at hm hr
    obtain ⟨s, e1, e2, e3, e4, e5, e6, e7⟩ := Equality.C40_block o hb le_rfl s₀ (hr.trans hm.symm)
    exact ⟨s, e1, fun z => by simp [e5, e6, trace]⟩
  | cost n Q =>
    simp only at h hr
    obtain ⟨s, -, e1, -, -, -, e2, e3, -⟩ := Equality.C40_cost n Q s₀ (by omega)
    exact ⟨s, e1, fun z => by simp [(e2 _).1, e3, trace]⟩

/-! ### The program -/

theorem schurAll_data {sqrt : ℝ → ℝ} (hv : ∀ x, 0 ≤ x → SolveLoop.Spec.SqrtAt sqrt x) {N : Nat}
    (es : List (Entry ℝ)) : ∀ {sys : List (Schur.Sys ℝ)}, (∀ e ∈ es, Data e N) → Iteration.Spec.Sized es sys →
    ∃ sys', Iteration.schurAll sqrt (es.map fun e => ⟨e.vars, setIdentity e.item⟩) sys = .ok sys' ∧
      ∀ (i : Nat) (e : Entry ℝ), es[i]? = some e → ∀ z : Nat → ℝ,
        ∑ j ∈ range e.vars.length, z j * (Iteration.sysAt sys' i).AW j =
          (Iteration.sysAt sys' i).wc - trace z e.item := by
  induction es with
  | nil => exact fun _ _ => ⟨[], rfl, fun i e h => by simp at h⟩
  | cons e es ih =>
    intro sys hg hs
    cases sys with
    | nil => simp [Iteration.Spec.Sized] at hs
    | cons s sys =>
      simp only [Iteration.Spec.Sized, List.map_cons, List.cons.injEq] at hs
      obtain ⟨t, h1, h2⟩ := item_trace hv (hg e List.mem_cons_self) hs.1
      obtain ⟨sys', h3, h4⟩ := ih (fun e he => hg e (List.mem_cons_of_mem _ he)) hs.2
      refine ⟨t :: sys', by simp only [List.map_cons, Iteration.schurAll, h1, h3, Outcome.bind_ok], fun i e' he => ?_⟩
      cases i with
      | zero =>
        simp only [List.getElem?_cons_zero, Option.some.injEq] at he
        subst he
        exact h2
      | succ i => exact h4 i e' he

/-- The value of the assembled vector. -/
theorem value_eq {N : Nat} {es : List (Entry ℝ)} (hg : ∀ e ∈ es, Data e N) {s : Nat → Schur.Sys ℝ} {a : Nat → ℝ}
    (ha : ∀ u, a u = ((List.range (es.map Entry.vars).length).map fun i =>
      Sup.Spec.ventry ((es.map Entry.vars).getD i []) (KktError.resid (s i)).AW u).sum)
    (hs : ∀ (i : Nat) (e : Entry ℝ), es[i]? = some e → ∀ z : Nat → ℝ,
      ∑ j ∈ range e.vars.length, z j * (s i).AW j = (s i).wc - trace z e.item) (z : Nat → ℝ) :
    ∑ u ∈ range N, a u * z u = ∑ i ∈ range es.length, (s i).wc - traces es z := by
  have h1 : ∀ u, a u * z u = ∑ i ∈ range es.length,
      z u * Sup.Spec.ventry ((es.map Entry.vars).getD i []) (s i).AW u := by
    intro u
    rw [ha, Gap.list_range_sum, List.length_map, mul_comm, mul_sum]
    rfl
  rw [sum_congr rfl fun u _ => h1 u, sum_comm]
  have h2 : ∀ i ∈ range es.length, ∑ u ∈ range N, z u * Sup.Spec.ventry ((es.map Entry.vars).getD i []) (s i).AW u =
      (s i).wc - (es[i]?.map fun e => trace (fun j => z (e.vars.getD j 0)) e.item).getD 0 := by
    intro i hi
    have hi := mem_range.1 hi
    have hL : (es.map Entry.vars).getD i [] = es[i].vars := by
      rw [List.getD_eq_getElem?_getD, List.getElem?_map, List.getElem?_eq_getElem hi]
      rfl
    have hge := hg _ (List.getElem_mem hi)
    rw [hL, Gap.sum_ventry hge.1 hge.2.1, hs i _ (List.getElem?_eq_getElem hi) fun j => z (es[i].vars.getD j 0),
      List.getElem?_eq_getElem hi]
    rfl
  rw [sum_congr rfl h2, sum_sub_distrib, traces, Gap.list_sum]

/-! ### Bounds -/

theorem psd_bound {ι : Type} [Fintype ι] [DecidableEq ι] {S : Matrix ι ι ℝ} (h : S.PosSemidef) :
    0 ≤ S.trace ∧ ∀ p q, |S p q| ≤ S.trace := by
  have hd : ∀ p, 0 ≤ S p p := fun p => h.diag_nonneg
  have ht : ∀ p, S p p ≤ S.trace := fun p => by
    unfold Matrix.trace
    exact single_le_sum (f := fun i => S.diag i) (fun i _ => hd i) (mem_univ p)
  refine ⟨sum_nonneg fun i _ => hd i, fun p q => ?_⟩
  have hsym : S q p = S p q := by
    have := h.isHermitian.apply p q
    simpa using this
  have key : ∀ a : ℝ, 0 ≤ S p p + 2 * a * S p q + a ^ 2 * S q q := by
    intro a
    have h1 := (Matrix.posSemidef_iff_dotProduct_mulVec.1 h).2 (Pi.single p 1 + a • Pi.single q 1)
    simp only [star_trivial, Matrix.mulVec_add, Matrix.mulVec_smul, Matrix.mulVec_single_one, add_dotProduct,
      dotProduct_add, smul_dotProduct, dotProduct_smul, single_one_dotProduct, Matrix.col_apply, hsym,
      smul_eq_mul] at h1
    linarith
  have h1 := key 1
  have h2 := key (-1)
  have h3 := ht p
  have h4 := ht q
  rw [abs_le]
  constructor <;> linarith

theorem cone_bound {B : (Nat → ℝ) → (Nat → ℝ) → ℝ} {s : Soc.El ℝ} (h : Spin.Spec.Cone B s) {t : ℝ} (ht : 2 * s.h ≤ t) :
    |s.h| ≤ t ∧ B s.t s.t ≤ t ^ 2 := by
  have h0 := h.1
  refine ⟨by rw [abs_of_nonneg h0]; linarith, h.2.trans (pow_le_pow_left₀ h0 (by linarith) 2)⟩

theorem gam_zero : ∀ i < 4, ∀ q < 4, Hyper.gam i 0 q = if i = q then 1 else 0 := by
  decide

open HermLmi Hyper in
theorem herm_bound {d n : Nat} (h0 : 0 < d) (h4 : d = 1 ∨ d = 2 ∨ d = 4) {X : HMat d n ℝ}
    (hX : Hyper.Spec.Hermitian X) (h : ∀ u, 0 ≤ HermLmi.Spec.form X u) :
    0 ≤ ∑ i, X ⟨0, h0⟩ i i ∧ ∀ c p q, |X c p q| ≤ 4 * ∑ i, X ⟨0, h0⟩ i i := by
  have hD := dim_of_assoc h4
  have : NeZero d := ⟨h0.ne'⟩
  obtain ⟨h1, h2⟩ := psd_bound ((Gap.psd_lmat hD hX).1 h)
  have h3 : (lmat X).trace = d * ∑ i, X ⟨0, h0⟩ i i := by
    rw [trace_lmat hD, retr_zero]
    rfl
  have hd0 : (0 : ℝ) < d := by exact_mod_cast h0
  have hd4 : (d : ℝ) ≤ 4 := by
    have : d ≤ 4 := by omega
    exact_mod_cast this
  have h5 : 0 ≤ ∑ i, X ⟨0, h0⟩ i i := by
    rw [h3] at h1
    exact nonneg_of_mul_nonneg_right h1 hd0
  refine ⟨h5, fun c p q => ?_⟩
  have h6 := h2 (c, p) (⟨0, h0⟩, q)
  have h7 : lmat X (c, p) (⟨0, h0⟩, q) = X c p q := by
    have hlt : ∀ i : Fin d, i.1 < 4 := fun i => by have := i.2; omega
    unfold lmat
    rw [sum_eq_single c]
    · simp [gam_zero _ (hlt c) _ (hlt c)]
    · intro i _ hi
      rw [gam_zero _ (hlt i) _ (hlt c), if_neg fun h => hi (Fin.ext h)]
      simp
    · simp
  rw [h7, h3] at h6
  exact h6.trans (mul_le_mul_of_nonneg_right hd4 h5)

/-- The trace of a slack in the cone is nonnegative and bounds its entries. -/
theorem item_bound {e : Entry ℝ} {N : Nat} (hg : Data e N) {z : Nat → ℝ} (hz : Gap.Spec.Sat z e.item) :
    0 ≤ trace z e.item ∧ ∀ t : ℝ, trace z e.item ≤ t → Within (4 * t) z e.item := by
  obtain ⟨vars, x⟩ := e
  obtain ⟨-, -, h⟩ := hg
  cases x with
  | linear o w =>
    have h0 : ∀ r ∈ range o.n, 0 ≤ o.c r - ∑ j ∈ range o.m, o.A r j * z j :=
      fun r hr => sub_nonneg.2 (hz r (mem_range.1 hr))
    have h1 : 0 ≤ trace z (.linear o w) := sum_nonneg h0
    refine ⟨h1, fun t ht r hr => ?_⟩
    rw [abs_of_nonneg (h0 r (mem_range.2 hr))]
    have := single_le_sum h0 (mem_range.2 hr)
    change _ ≤ trace z (.linear o w) at this
    simp only at ht
    linarith
  | lmi n o w =>
    obtain ⟨h1, h2⟩ := psd_bound hz
    refine ⟨h1, fun t ht p q => (h2 p q).trans ?_⟩
    simp only [trace] at ht
    linarith
  | hermitian d n hd o w =>
    obtain ⟨-, h4, ho, -⟩ := h
    obtain ⟨C, hC, hu⟩ := hz
    obtain ⟨h1, h2⟩ := herm_bound (Nat.pos_of_ne_zero hd.out) h4 (HermLmi.hermitian_slack hC ho 1 z) hu
    have e : trace z (.hermitian d n hd o w) =
        ∑ i, HermLmi.Spec.slack o.mats C 1 z ⟨0, Nat.pos_of_ne_zero hd.out⟩ i i := by
      simp only [trace, hC, Option.getD_some]
    refine ⟨e ▸ h1, fun t ht C' hC' c p q => ?_⟩
    rw [hC, Option.some.injEq] at hC'
    subst hC'
    simp only [e] at ht
    exact (h2 c p q).trans (by linarith)
  | octonion n o w => exact hz.elim
  | soc o w =>
    have h1 : 0 ≤ trace z (.soc o w) := mul_nonneg two_pos.le hz.1
    refine ⟨h1, fun t ht => ?_⟩
    simp only at ht
    obtain ⟨h2, h3⟩ := cone_bound hz (t := 4 * t) (by simp only [trace] at h1 ht; linarith)
    refine ⟨h2, fun i hi => abs_le_of_sq_le_sq ?_ (by linarith)⟩
    refine le_trans ?_ h3
    unfold Soc.dot
    rw [sq]
    exact single_le_sum (f := fun i => (Soc.Spec.slack o 1 z).t i * (Soc.Spec.slack o 1 z).t i)
      (fun i _ => mul_self_nonneg _) (mem_range.2 hi)
  | quad o w =>
    have h1 : 0 ≤ trace z (.quad o w) := mul_nonneg two_pos.le hz.1
    refine ⟨h1, fun t ht => ?_⟩
    simp only at ht
    exact cone_bound hz (by simp only [trace] at h1 ht; linarith)
  | equality o => exact ⟨le_rfl, fun _ _ => trivial⟩
  | cost n Q => exact ⟨le_rfl, fun _ _ => trivial⟩

end Verif.Feasible
