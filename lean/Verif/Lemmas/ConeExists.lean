import Verif.Lemmas.ConeBarrier
import Verif.Lemmas.ConeCentering
import Verif.Lemmas.CentralExists

/-!
# Lemmas for C93: existence and uniqueness of central points of cones, and their distance from scaling points
-/

namespace Verif.ConeCentering

open Finset Verif.Dual Iteration.Spec Whole.Spec Spec Spin
open Spin.Spec (IsForm Interior Same tr)
open Centering.Spec (gradients gradient curvature)
open Centering (Barrier.quad Barrier.slk qmat)
open Whole (nth_get nth_mem nth_of ventry_congr)
open Soc (El)

theorem Shape.costs {es : List (Entry ℝ)} {N : Nat} (hs : Shape es N) : Centering.Costs es N := by
  refine ⟨hs.vars, fun i hi => ?_⟩
  rcases hs.kind i hi with ⟨o, w, ho, -⟩ | ⟨o, w, ho, -⟩ | ⟨o, w, ho, -⟩ | ⟨n, Q, ho, hn, hQ⟩
  · exact Or.inl (by rw [ho]; exact ⟨rfl, rfl⟩)
  · exact Or.inl (by rw [ho]; exact ⟨rfl, rfl⟩)
  · exact Or.inl (by rw [ho]; exact ⟨rfl, rfl⟩)
  · exact Or.inr ⟨n, Q, ho, hn, hQ⟩

/-- Slacks are affine functions. -/
theorem slack_add (es : List (Entry ℝ)) (c t : ℝ) (y z : Nat → ℝ) (i r : Nat) :
    slack es c (fun u => y u + t * z u) i r = Spin.Spec.add (slack es c y i r) (Spin.Spec.smul t (slack es 0 z i r)) := by
  unfold slack Spin.Spec.add Spin.Spec.smul
  simp only [mul_add, sum_add_distrib, El.mk.injEq]
  refine ⟨?_, ?_⟩
  · rw [show (fun j => (column (nth es i).item r j).h * (t * z ((nth es i).vars.getD j 0))) =
      fun j => t * ((column (nth es i).item r j).h * z ((nth es i).vars.getD j 0)) from by funext j; ring, ← mul_sum]
    ring
  · funext l
    rw [show (fun j => (column (nth es i).item r j).t l * (t * z ((nth es i).vars.getD j 0))) =
      fun j => t * ((column (nth es i).item r j).t l * z ((nth es i).vars.getD j 0)) from by funext j; ring, ← mul_sum]
    ring

theorem getD_mem {L : List Nat} {j : Nat} (h : j < L.length) : L.getD j 0 ∈ L := by
  rw [List.getD_eq_getElem?_getD, List.getElem?_eq_getElem h]
  exact List.getElem_mem _

theorem slack_congr {es : List (Entry ℝ)} {N : Nat} (hs : Shape es N) (c : ℝ) {y z : Nat → ℝ} (h : ∀ u < N, y u = z u)
    {i : Nat} (hi : i < es.length) (r : Nat) : slack es c y i r = slack es c z i r := by
  have e : ∀ j ∈ range (nth es i).vars.length, y ((nth es i).vars.getD j 0) = z ((nth es i).vars.getD j 0) := by
    intro j hj
    refine h _ ((hs.vars _ (nth_mem hi)).2 _ ?_)
    exact getD_mem (mem_range.1 hj)
  unfold slack
  simp only [El.mk.injEq]
  refine ⟨?_, ?_⟩
  · congr 1
    exact sum_congr rfl fun j hj => by rw [e j hj]
  · funext l
    congr 1
    exact sum_congr rfl fun j hj => by rw [e j hj]

/-- The indicator of an unknown. -/
def unit (u v : Nat) : ℝ := if v = u then 1 else 0

theorem sum_unit {L : List Nat} {N : Nat} (hN : ∀ v ∈ L, v < N) (y F : Nat → ℝ) :
    ∑ u ∈ range N, y u * ∑ j ∈ range L.length, unit u (L.getD j 0) * F j =
      ∑ j ∈ range L.length, y (L.getD j 0) * F j := by
  simp only [mul_sum]
  rw [sum_comm]
  refine sum_congr rfl fun j hj => ?_
  have : L.getD j 0 < N := hN _ (getD_mem (mem_range.1 hj))
  simp only [unit, ite_mul, one_mul, zero_mul, mul_ite, mul_zero]
  rw [sum_ite_eq, if_pos (mem_range.2 this)]

/-- The head of a linear slack. -/
theorem head_sum {es : List (Entry ℝ)} {N : Nat} (hs : Shape es N) (c : ℝ) (y : Nat → ℝ) {i : Nat} (hi : i < es.length)
    (r : Nat) : (slack es c y i r).h = c * (affine (nth es i).item r).h +
      ∑ u ∈ range N, y u * (slack es 0 (unit u) i r).h := by
  obtain ⟨-, h2⟩ := hs.vars _ (nth_mem hi)
  have := sum_unit h2 y fun j => (column (nth es i).item r j).h
  unfold slack
  simp only [zero_mul, zero_sub, mul_neg, sum_neg_distrib]
  simp only [mul_comm ((column (nth es i).item r _).h)]
  rw [this, ← sub_eq_add_neg]

/-- The form on the tail of a slack. -/
theorem tail_form {es : List (Entry ℝ)} {N : Nat} (hs : Shape es N) (c : ℝ) (y : Nat → ℝ) {i : Nat} (hi : i < es.length)
    (r : Nat) (v : Nat → ℝ) : form (nth es i).item (slack es c y i r).t v =
      c * form (nth es i).item (affine (nth es i).item r).t v +
      ∑ u ∈ range N, y u * form (nth es i).item (slack es 0 (unit u) i r).t v := by
  obtain ⟨-, h2⟩ := hs.vars _ (nth_mem hi)
  have hB := (hs.kind i hi).form
  have key : ∀ (c : ℝ) (y : Nat → ℝ), form (nth es i).item (slack es c y i r).t v =
      c * form (nth es i).item (affine (nth es i).item r).t v - ∑ j ∈ range (nth es i).vars.length,
        y ((nth es i).vars.getD j 0) * form (nth es i).item (column (nth es i).item r j).t v := fun c y =>
    form_slack hB c _ (fun j => (column (nth es i).item r j).t) _ (fun j => y ((nth es i).vars.getD j 0)) v
  rw [key]
  simp only [key 0, zero_mul, zero_sub, mul_neg, sum_neg_distrib]
  rw [sum_unit h2, ← sub_eq_add_neg]

theorem tail_zero {es : List (Entry ℝ)} {N : Nat} (hs : Shape es N) (y : Nat → ℝ) {i : Nat} (hi : i < es.length) (r : Nat) :
    form (nth es i).item (slack es 0 y i r).t (slack es 0 y i r).t = ∑ u ∈ range N, y u * ∑ v ∈ range N,
      form (nth es i).item (slack es 0 (unit u) i r).t (slack es 0 (unit v) i r).t * y v := by
  have hB := (hs.kind i hi).form
  rw [tail_form hs _ _ hi, zero_mul, zero_add]
  refine sum_congr rfl fun u _ => ?_
  rw [hB.symm, tail_form hs _ _ hi, zero_mul, zero_add]
  congr 1
  exact sum_congr rfl fun v _ => by rw [hB.symm, mul_comm]

/-- The images, with indicators. -/
theorem image_unit {es : List (Entry ℝ)} {N : Nat} (hs : Shape es N) (x : Nat → Nat → El ℝ) {u : Nat} (hu : u < N) :
    (total es fun i r => half (nth es i).item * tr (form (nth es i).item) (x i r) (slack es 0 (unit u) i r)) =
      -image es x u := by
  have h1 := pairing hs x (unit u)
  have h2 : ∑ v ∈ range N, unit u v * image es x v = image es x u := by
    simp only [unit, ite_mul, one_mul, zero_mul]
    rw [sum_ite_eq', if_pos (mem_range.2 hu)]
  rw [h2] at h1
  rw [h1, ← neg_one_mul, ← total_mul]
  refine total_congr fun i hi r _ => ?_
  have hB := (hs.kind i hi).form
  have h3 : tr (form (nth es i).item) (x i r) (slack es 0 (unit u) i r) =
      -∑ j ∈ range (nth es i).vars.length, unit u ((nth es i).vars.getD j 0) *
        tr (form (nth es i).item) (column (nth es i).item r j) (x i r) := by
    rw [tr_comm hB]
    refine (tr_slack hB _ _ _ 0 (fun j => unit u ((nth es i).vars.getD j 0)) _).trans ?_
    rw [zero_mul, zero_sub]
  rw [h3, mul_neg, neg_one_mul, mul_sum]
  congr 1
  refine sum_congr rfl fun j _ => ?_
  rw [pair_eq]
  ring

/-- Displacements that change neither slacks nor costs are zero. -/
theorem determined_zero {es : List (Entry ℝ)} {N : Nat} (hs : Shape es N) (hd : Determined N es) {y : Nat → ℝ}
    (h : ∀ i < es.length, ∀ r < cells (nth es i).item, (slack es 0 y i r).h = 0 ∧
      form (nth es i).item (slack es 0 y i r).t (slack es 0 y i r).t = 0)
    (hq : curvature es N y = 0) : ∀ u < N, y u = 0 := by
  by_contra hcon
  push Not at hcon
  obtain ⟨e, he, hn⟩ := hd y hcon
  obtain ⟨i, hi⟩ := List.getElem?_of_mem he
  have hlt := (List.getElem?_eq_some_iff.1 hi).1
  have hi' := nth_of hi
  subst hi'
  refine hn ?_
  have h := h i hlt
  rcases hs.kind i hlt with ⟨o, w, ho, -, hm⟩ | ⟨o, w, ho, -, hm⟩ | ⟨o, w, ho, -, -, hm⟩ | ⟨n, Q, ho, hn, -⟩
  · rw [ho]
    intro r hr
    have h1 := (h r (by rw [ho]; exact hr)).1
    simp only [slack, zero_mul, zero_sub, neg_eq_zero, ho, ← hm] at h1
    exact h1
  · rw [ho]
    obtain ⟨h1, h2⟩ := h 0 (by rw [ho]; exact Nat.one_pos)
    simp only [slack, zero_mul, zero_sub, neg_eq_zero, ho, ← hm] at h1 h2
    intro l hl
    rcases l with _ | l
    · exact h1
    · have h2' : ∑ k ∈ range o.n, (-∑ x ∈ range o.m, o.A (k + 1) x * y ((nth es i).vars.getD x 0)) *
          (-∑ x ∈ range o.m, o.A (k + 1) x * y ((nth es i).vars.getD x 0)) = 0 := h2
      have h3 := (sum_eq_zero_iff_of_nonneg fun i _ => mul_self_nonneg _).1 h2' l (mem_range.2 hl)
      exact neg_eq_zero.1 (mul_self_eq_zero.1 h3)
  · rw [ho]
    obtain ⟨h1, h2⟩ := h 0 (by rw [ho]; exact Nat.one_pos)
    have hB := (hs.kind i hlt).form
    simp only [slack, zero_mul, zero_sub, neg_eq_zero, ho, ← hm] at h1 h2 hB
    refine ⟨h1, ?_⟩
    have e : ∀ f : Nat → ℝ, (fun l => -f l) = fun l => (-1) * f l := fun f => by funext l; ring
    rw [e, hB.smul, hB.smul_right] at h2
    have h3 : form (Item.quad o w) = QuadCone.inner o.n o.Q := rfl
    rw [h3] at h2
    have h4 : ∀ a : ℝ, -1 * (-1 * a) = 0 → a = 0 := fun a ha => by linarith
    exact h4 _ h2
  · rw [hs.costs.curvature_eq] at hq
    have := (sum_eq_zero_iff_of_nonneg fun i hi => hs.costs.form_nonneg y (mem_range.1 hi)).1 hq i (mem_range.2 hlt)
    rw [ho, ← hn] at this
    rw [ho]
    exact this

/-- The inner product with an interior point bounds the head. -/
theorem tr_ge {B : (Nat → ℝ) → (Nat → ℝ) → ℝ} (hB : IsForm B) {x s : El ℝ} (hx : Interior B x) (hs : Interior B s) :
    det B x / x.h * s.h ≤ tr B x s := by
  obtain ⟨hx0, hx1⟩ := hx
  obtain ⟨hs0, hs1⟩ := hs
  have h1 := hB.cauchy x.t s.t
  have h0 := hB.nonneg x.t
  have h2 : B x.t s.t ^ 2 ≤ ((x.h + B x.t x.t / x.h) / 2 * s.h) ^ 2 := by
    refine h1.trans ((mul_le_mul_of_nonneg_left hs1.le h0).trans ?_)
    rw [mul_pow]
    refine mul_le_mul_of_nonneg_right ?_ (sq_nonneg _)
    have : ((x.h + B x.t x.t / x.h) / 2) ^ 2 - B x.t x.t = ((x.h - B x.t x.t / x.h) / 2) ^ 2 := by
      field_simp
      ring
    nlinarith [sq_nonneg ((x.h - B x.t x.t / x.h) / 2)]
  have h3 := abs_le_of_sq_le_sq h2 (by positivity)
  have h4 := (abs_le.1 h3).1
  unfold Spec.det Spin.Spec.tr Spin.Spec.mul
  have h5 : (x.h ^ 2 - B x.t x.t) / x.h = x.h - B x.t x.t / x.h := by
    field_simp
  rw [h5]
  simp only
  nlinarith

/-- Existence. -/
theorem central_exists {es : List (Entry ℝ)} {N : Nat} (hs : Shape es N) (hd : Determined N es) {g : Nat → ℝ} {c : ℝ}
    {y : Nat → ℝ} {x : Nat → Nat → El ℝ} {w : Nat → ℝ} (h : Strict es N g c y x w) : ∃ z, Central es N g c z := by
  have hB : ∀ k : (i : Fin es.length) × Fin (cells (nth es i).item), IsForm (form (nth es k.1).item) := fun k =>
    (hs.kind k.1 k.1.2).form
  set ext : (Fin N → ℝ) → Nat → ℝ := fun y u => if h : u < N then y ⟨u, h⟩ else 0 with hext
  have hval : ∀ y (u : Fin N), ext y u = y u := fun y u => by simp [hext]
  have hback : ∀ y' : Nat → ℝ, ∀ u < N, ext (fun u => y' u) u = y' u := fun y' u hu => by simp [hext, hu]
  have hextc : ∀ u, Continuous fun y => ext y u := by
    intro u
    by_cases hu : u < N
    · simp only [hext, hu, dif_pos]
      exact continuous_apply _
    · simp only [hext, hu, dif_neg, not_false_eq_true]
      exact continuous_const
  have hextadd : ∀ (z : Fin N → ℝ) (t : ℝ) (u : Fin N), ∀ v < N,
      ext (z + t • Pi.single u (1 : ℝ)) v = ext z v + t * unit u v := by
    intro z t u v hv
    simp only [hext, hv, dif_pos, Pi.add_apply, Pi.smul_apply, smul_eq_mul, unit, Pi.single_apply, Fin.ext_iff]
  have hsum : ∀ f : Nat → ℝ, ∑ u ∈ range N, f u = ∑ u : Fin N, f u := fun f => (Fin.sum_univ_eq_sum_range f N).symm
  set σ : ((i : Fin es.length) × Fin (cells (nth es i).item)) → Nat → El ℝ := fun k u =>
    slack es 0 (unit u) k.1 k.2 with hσ
  set α : ((i : Fin es.length) × Fin (cells (nth es i).item)) → Fin N → ℝ := fun k u => -(σ k u).h with hα
  set d : ((i : Fin es.length) × Fin (cells (nth es i).item)) → ℝ := fun k => c * (affine (nth es k.1).item k.2).h with hd'
  set S : ((i : Fin es.length) × Fin (cells (nth es i).item)) → (Fin N → ℝ) → El ℝ := fun k y =>
    slack es c (ext y) k.1 k.2 with hS
  set R : ((i : Fin es.length) × Fin (cells (nth es i).item)) → Fin N → Fin N → ℝ := fun k u v =>
    form (nth es k.1).item (σ k u).t (σ k v).t with hR
  set Q : Fin N → Fin N → ℝ := fun u v => ∑ i ∈ range es.length, Sup.Spec.ventry (nth es i).vars
    (fun j => Sup.Spec.ventry (nth es i).vars (qmat (nth es i).item j) v) u with hQ
  have hslk : ∀ (y : Fin N → ℝ) k, Centering.Barrier.slk α d k y = (S k y).h := by
    intro y k
    simp only [hS]
    rw [head_sum hs c (ext y) k.1.2, hsum]
    unfold Centering.Barrier.slk
    simp only [hval, hα, neg_mul, sum_neg_distrib, sub_neg_eq_add]
    congr 1
    exact sum_congr rfl fun u _ => mul_comm _ _
  have hquadR : ∀ k (y : Fin N → ℝ), Centering.Barrier.quad (R k) y =
      form (nth es k.1).item (slack es 0 (ext y) k.1 k.2).t (slack es 0 (ext y) k.1 k.2).t := by
    intro k y
    rw [tail_zero hs _ k.1.2]
    simp only [hsum, hval]
    rfl
  have hgrad : ∀ (y : Nat → ℝ) (u : Fin N), ∑ v, Q u v * y v = gradients es y u := by
    intro y u
    rw [hs.costs.gradients_eq, hsum]
  have hgrad' : ∀ (y : Fin N → ℝ) (u : Fin N), ∑ v, Q u v * y v = gradients es (ext y) u := by
    intro y u
    rw [← hgrad]
    exact sum_congr rfl fun v _ => by rw [hval]
  have hcurv : ∀ y : Fin N → ℝ, Centering.Barrier.quad Q y = curvature es N (ext y) := by
    intro y
    unfold Centering.Barrier.quad curvature
    rw [hsum]
    exact sum_congr rfl fun u _ => by rw [hgrad', hval]
  have hsym : ∀ u v, Q u v = Q v u := by
    intro u v
    refine sum_congr rfl fun i hi => ?_
    rcases hs.costs.kind i (mem_range.1 hi) with ⟨-, ho⟩ | ⟨n, Q, ho, hn, hQ⟩
    · rw [ho]
      simp [Sup.Spec.ventry]
    · unfold Sup.Spec.ventry
      split_ifs with h1 h2
      · rw [ho]
        exact hQ.1 _ (hn ▸ List.idxOf_lt_length_iff.2 h1) _ (hn ▸ List.idxOf_lt_length_iff.2 h2)
      all_goals rfl
  have hSadd : ∀ k (z : Fin N → ℝ) (t : ℝ) (u : Fin N), S k (z + t • Pi.single u (1 : ℝ)) =
      Spin.Spec.add (S k z) (Spin.Spec.smul t (σ k u)) := by
    intro k z t u
    simp only [hS, hσ]
    rw [slack_congr hs c (hextadd z t u) k.1.2, slack_add]
  have hcont : ∀ k v, Continuous fun y => form (nth es k.1).item (S k y).t v := by
    intro k v
    have e : (fun y => form (nth es k.1).item (S k y).t v) = fun y =>
        c * form (nth es k.1).item (affine (nth es k.1).item k.2).t v +
        ∑ u ∈ range N, ext y u * form (nth es k.1).item (σ k u).t v := by
      funext y
      exact tail_form hs c (ext y) k.1.2 k.2 v
    rw [e]
    exact continuous_const.add (continuous_finsetSum _ fun u _ => (hextc u).mul continuous_const)
  have hhead : ∀ k, Continuous fun y => (S k y).h := by
    intro k
    have e : (fun y => (S k y).h) = Centering.Barrier.slk α d k := by
      funext y
      rw [hslk]
    rw [e]
    exact Centering.Barrier.slk_cont α d k
  obtain ⟨z, h1, h2⟩ := Centering.Barrier.cone_stationary (α := α) (Q := Q) (R := R) (d := d)
    (T := fun k y => form (nth es k.1).item (S k y).t (S k y).t)
    (P := fun k y => tr (form (nth es k.1).item) (x k.1 k.2) (S k y))
    (ω := fun k => half (nth es k.1).item)
    (μ := fun k => det (form (nth es k.1).item) (x k.1 k.2) / (x k.1 k.2).h) (y₁ := fun u => y u)
    (E := fun k u z => 2 * form (nth es k.1).item (S k z).t (σ k u).t)
    (C := fun k u => form (nth es k.1).item (σ k u).t (σ k u).t)
    (q := fun k u => tr (form (nth es k.1).item) (x k.1 k.2) (σ k u))
    hsym (fun y' => by
      rw [hcurv]
      exact hs.costs.curvature_nonneg _)
    (fun k y' => by
      rw [hquadR]
      exact (hB k).nonneg _)
    (fun y' g1 g2 g3 => by
      rw [hcurv] at g3
      funext u
      rw [← hval y' u]
      refine determined_zero hs hd (fun i hi r hr => ⟨?_, ?_⟩) g3 u u.2
      · have := g1 ⟨⟨i, hi⟩, ⟨r, hr⟩⟩
        rw [head_sum hs 0 (ext y') hi, zero_mul, zero_add, hsum]
        simp only [hα, neg_mul, sum_neg_distrib, neg_eq_zero] at this
        refine Eq.trans (sum_congr rfl fun v _ => ?_) this
        rw [hval, mul_comm]
      · have := g2 ⟨⟨i, hi⟩, ⟨r, hr⟩⟩
        rw [hquadR] at this
        exact this)
    (fun u => w u) (fun k => half_pos _)
    (fun k => div_pos (det_pos (h.dual k.1 k.1.2 k.2 k.2.2)) (h.dual k.1 k.1.2 k.2 k.2.2).1)
    (fun k y' => (hB k).nonneg _)
    (fun k a b => by
      rw [hquadR]
      have e1 : (slack es 0 (ext (a - b)) k.1 k.2).t = fun l => 1 * (S k a).t l + (-1) * (S k b).t l := by
        funext l
        simp only [hS, slack]
        have : ∑ j ∈ range (nth es k.1).vars.length, (column (nth es k.1).item k.2 j).t l *
            ext (a - b) ((nth es k.1).vars.getD j 0) =
            ∑ j ∈ range (nth es k.1).vars.length, (column (nth es k.1).item k.2 j).t l *
            ext a ((nth es k.1).vars.getD j 0) - ∑ j ∈ range (nth es k.1).vars.length,
            (column (nth es k.1).item k.2 j).t l * ext b ((nth es k.1).vars.getD j 0) := by
          rw [← sum_sub_distrib]
          refine sum_congr rfl fun j _ => ?_
          rw [← mul_sub]
          congr 1
          simp only [hext]
          split_ifs
          · rfl
          · ring
        rw [this]
        ring
      have e2 := (hB k).nonneg fun l => 1 * (S k a).t l + 1 * (S k b).t l
      rw [e1]
      rw [(hB k).comb, (hB k).comb_right, (hB k).comb_right] at *
      linarith)
    (fun k => by
      have e : (fun y => form (nth es k.1).item (S k y).t (S k y).t) = fun y =>
          c * form (nth es k.1).item (S k y).t (affine (nth es k.1).item k.2).t +
          ∑ u ∈ range N, ext y u * form (nth es k.1).item (S k y).t (σ k u).t := by
        funext y
        refine (tail_form hs c (ext y) k.1.2 k.2 _).trans ?_
        rw [(hB k).symm]
        congr 1
        exact sum_congr rfl fun u _ => by rw [(hB k).symm]
      change Continuous fun y => form (nth es k.1).item (S k y).t (S k y).t
      rw [e]
      exact (continuous_const.mul (hcont k _)).add (continuous_finsetSum _ fun u _ => (hextc u).mul (hcont k _)))
    (fun k => by
      have e : (fun y => tr (form (nth es k.1).item) (x k.1 k.2) (S k y)) = fun y =>
          2 * ((x k.1 k.2).h * (S k y).h + form (nth es k.1).item (S k y).t (x k.1 k.2).t) := by
        funext y
        rw [(hB k).symm]
        rfl
      change Continuous fun y => tr (form (nth es k.1).item) (x k.1 k.2) (S k y)
      rw [e]
      exact continuous_const.mul ((continuous_const.mul (hhead k)).add (hcont k _)))
    (fun k y' g1 g2 => by
      rw [hslk] at g1 g2 ⊢
      exact tr_ge (hB k) (h.dual k.1 k.1.2 k.2 k.2.2) ⟨g1, g2⟩)
    (fun k u z t => by
      rw [hSadd]
      simp only [Spin.Spec.add, Spin.Spec.smul, (hB k).add, (hB k).add_right, (hB k).smul, (hB k).smul_right]
      rw [(hB k).symm (σ k u).t]
      ring)
    (fun k u z t => by
      rw [hSadd, tr_comm (hB k), tr_add (hB k), tr_smul (hB k), tr_comm (hB k), tr_comm (hB k) (σ k u)])
    (fun k => by
      rw [hslk]
      have e : S k (fun u => y u) = slack es c y k.1 k.2 := slack_congr hs c (hback y) k.1.2 _
      simp only [e]
      exact h.primal k.1 k.1.2 k.2 k.2.2)
  refine ⟨ext z, fun i hi r hr => ?_, fun u hu => ?_⟩
  · have := h1 ⟨⟨i, hi⟩, ⟨r, hr⟩⟩
    rw [hslk] at this
    exact this
  · have h3 := h2 ⟨u, hu⟩
    rw [hgrad', hgrad] at h3
    have h4 : ∑ k, half (nth es k.1).item * (tr (form (nth es k.1).item) (x k.1 k.2) (σ k u) +
        (2 * Centering.Barrier.slk α d k z * α k ⟨u, hu⟩ + 2 * form (nth es k.1).item (S k z).t (σ k u).t) /
          (Centering.Barrier.slk α d k z ^ 2 - form (nth es k.1).item (S k z).t (S k z).t)) =
        (total es fun i r => half (nth es i).item * tr (form (nth es i).item) (x i r) (slack es 0 (unit u) i r)) +
        -1 * total es fun i r => half (nth es i).item * tr (form (nth es i).item)
          (inverse (form (nth es i).item) (slack es c (ext z) i r)) (slack es 0 (unit u) i r) := by
      rw [← total_mul, ← total_add]
      unfold total
      rw [Fintype.sum_sigma, ← Fin.sum_univ_eq_sum_range (fun i => ∑ r ∈ range (cells (nth es i).item), _)]
      refine sum_congr rfl fun i _ => ?_
      rw [← Fin.sum_univ_eq_sum_range (fun r => _)]
      refine sum_congr rfl fun r _ => ?_
      rw [hslk, tr_inverse (hB ⟨i, r⟩)]
      simp only [hα, hσ, hS, sh, Spec.det]
      ring
    rw [h4, image_unit hs _ hu, image_unit hs _ hu] at h3
    have h5 := h.equations u hu
    linarith

/-! ### Uniqueness -/

variable {B : (Nat → ℝ) → (Nat → ℝ) → ℝ}

/-- The reversed Cauchy inequality. -/
theorem sh_ge (hB : IsForm B) {s s' : El ℝ} (h : Interior B s) (h' : Interior B s') :
    0 < sh B s s' ∧ 4 * (det B s * det B s') ≤ sh B s s' ^ 2 := by
  obtain ⟨h0, h1⟩ := h
  obtain ⟨h0', h1'⟩ := h'
  have c := hB.cauchy s.t s'.t
  have n := hB.nonneg s.t
  have n' := hB.nonneg s'.t
  set T := B s.t s.t
  set T' := B s'.t s'.t
  set b := B s.t s'.t
  have hr := Real.sq_sqrt n
  have hr' := Real.sq_sqrt n'
  have r0 := Real.sqrt_nonneg T
  have r0' := Real.sqrt_nonneg T'
  set r := Real.sqrt T
  set r' := Real.sqrt T'
  have hb : b ≤ r * r' := by
    refine (abs_le_of_sq_le_sq' ?_ (mul_nonneg r0 r0')).2
    rw [mul_pow, hr, hr']
    exact c
  have hrh : r < s.h := lt_of_pow_lt_pow_left₀ 2 h0.le (by rw [hr]; exact h1)
  have hrh' : r' < s'.h := lt_of_pow_lt_pow_left₀ 2 h0'.le (by rw [hr']; exact h1')
  have hp : r * r' < s.h * s'.h := mul_lt_mul'' hrh hrh' r0 r0'
  refine ⟨?_, ?_⟩
  · change 0 < 2 * (s.h * s'.h - b)
    linarith
  · change 4 * ((s.h ^ 2 - T) * (s'.h ^ 2 - T')) ≤ (2 * (s.h * s'.h - b)) ^ 2
    have k1 : (s.h * s'.h - r * r') ^ 2 ≤ (s.h * s'.h - b) ^ 2 := pow_le_pow_left₀ (by linarith) (by linarith) 2
    rw [← hr, ← hr']
    nlinarith [sq_nonneg (s.h * r' - s'.h * r)]

/-- The product of differences of inverses and points is not positive, and zero only for equal points. -/
theorem cross_inverse (hB : IsForm B) {s s' : El ℝ} (h : Interior B s) (h' : Interior B s') :
    cross B (inverse B s) (inverse B s') s s' ≤ 0 ∧ (cross B (inverse B s) (inverse B s') s s' = 0 →
      s.h = s'.h ∧ B (fun l => s.t l + -1 * s'.t l) (fun l => s.t l + -1 * s'.t l) = 0) := by
  obtain ⟨g1, g2⟩ := sh_ge hB h h'
  have hD := det_pos h
  have hD' := det_pos h'
  have hself : ∀ s : El ℝ, sh B s s = 2 * det B s := fun s => by
    unfold sh Spec.det
    ring
  have hcomm : sh B s' s = sh B s s' := by
    unfold sh
    rw [hB.symm s'.t]
    ring
  have e : cross B (inverse B s) (inverse B s') s s' =
      (4 * (det B s * det B s') - sh B s s' * (det B s + det B s')) / (det B s * det B s') := by
    unfold cross
    rw [tr_inverse hB, tr_inverse hB, tr_inverse hB, tr_inverse hB, hself, hself, hcomm]
    field_simp
    ring
  have hle : 4 * (det B s * det B s') ≤ sh B s s' * (det B s + det B s') := by
    refine (abs_le_of_sq_le_sq' ?_ (by positivity)).2
    have k := mul_le_mul_of_nonneg_right g2 (sq_nonneg (det B s + det B s'))
    have : 0 < det B s * det B s' := mul_pos hD hD'
    nlinarith [mul_nonneg this.le (sq_nonneg (det B s - det B s'))]
  rw [e]
  refine ⟨div_nonpos_of_nonpos_of_nonneg (by linarith) (mul_pos hD hD').le, fun h0 => ?_⟩
  have h1 : sh B s s' * (det B s + det B s') = 4 * (det B s * det B s') := by
    rcases div_eq_zero_iff.1 h0 with h2 | h2
    · linarith
    · exact absurd h2 (mul_pos hD hD').ne'
  have h2 : det B s = det B s' := by
    have k := mul_le_mul_of_nonneg_right g2 (sq_nonneg (det B s + det B s'))
    rw [← mul_pow, h1] at k
    have k2 : (det B s * det B s') * (det B s - det B s') ^ 2 ≤ 0 := by nlinarith
    have k3 : (det B s - det B s') ^ 2 = 0 :=
      le_antisymm (nonpos_of_mul_nonpos_right k2 (mul_pos hD hD')) (sq_nonneg _)
    exact sub_eq_zero.1 (pow_eq_zero_iff two_ne_zero |>.1 k3)
  have h3 : sh B s s' = 2 * det B s := by
    rw [← h2] at h1
    have : (sh B s s' - 2 * det B s) * (2 * det B s) = 0 := by linear_combination h1
    rcases mul_eq_zero.1 this with h4 | h4
    · linarith
    · exact absurd h4 (by positivity)
  have c := hB.cauchy s.t s'.t
  have a1 : B s.t s'.t = s.h * s'.h - det B s := by
    unfold sh at h3
    linarith
  have a2 : B s.t s.t = s.h ^ 2 - det B s := by
    unfold Spec.det
    ring
  have a3 : B s'.t s'.t = s'.h ^ 2 - det B s := by
    rw [h2]
    unfold Spec.det
    ring
  have h4 : s.h = s'.h := by
    rw [a1, a2, a3] at c
    have k2 : det B s * (s.h - s'.h) ^ 2 ≤ 0 := by nlinarith
    have k3 : (s.h - s'.h) ^ 2 = 0 := le_antisymm (nonpos_of_mul_nonpos_right k2 hD) (sq_nonneg _)
    exact sub_eq_zero.1 (pow_eq_zero_iff two_ne_zero |>.1 k3)
  refine ⟨h4, ?_⟩
  simp only [hB.add, hB.add_right, hB.smul, hB.smul_right]
  rw [hB.symm s'.t s.t, a1, a2, a3, h4]
  ring

/-- The curvature of a difference. -/
theorem curvature_sub {es : List (Entry ℝ)} {N : Nat} (hs : Shape es N) (y z : Nat → ℝ) :
    curvature es N (fun u => y u - z u) = ∑ u ∈ range N, (y u - z u) * (gradients es y u - gradients es z u) := by
  unfold curvature
  exact sum_congr rfl fun u _ => by rw [hs.costs.gradients_sub]

theorem central_unique {es : List (Entry ℝ)} {N : Nat} (hs : Shape es N) (hd : Determined N es) {g : Nat → ℝ} {c : ℝ}
    {z z' : Nat → ℝ} (h : Central es N g c z) (h' : Central es N g c z') : ∀ u < N, z' u = z u := by
  have h1 := cross_eq hs (fun i r => inverse (form (nth es i).item) (slack es c z' i r))
    (fun i r => inverse (form (nth es i).item) (slack es c z i r)) z' z c
  have h2 : -∑ u ∈ range N, (z' u - z u) * (image es (fun i r => inverse (form (nth es i).item) (slack es c z' i r)) u -
      image es (fun i r => inverse (form (nth es i).item) (slack es c z i r)) u) =
      curvature es N fun u => z' u - z u := by
    rw [curvature_sub hs, ← sum_neg_distrib]
    refine sum_congr rfl fun u hu => ?_
    have g1 := h.stationary u (mem_range.1 hu)
    have g2 := h'.stationary u (mem_range.1 hu)
    linear_combination (z' u - z u) * (g1 - g2)
  rw [h2] at h1
  have hc := hs.costs.curvature_nonneg fun u => z' u - z u
  have hle : ∀ i < es.length, ∀ r < cells (nth es i).item, half (nth es i).item * cross (form (nth es i).item)
      (inverse (form (nth es i).item) (slack es c z' i r)) (inverse (form (nth es i).item) (slack es c z i r))
      (slack es c z' i r) (slack es c z i r) ≤ 0 := fun i hi r hr =>
    mul_nonpos_of_nonneg_of_nonpos (half_pos _).le
      (cross_inverse (hs.kind i hi).form (h'.interior i hi r hr) (h.interior i hi r hr)).1
  have hzero : ∀ i < es.length, ∀ r < cells (nth es i).item, half (nth es i).item * cross (form (nth es i).item)
      (inverse (form (nth es i).item) (slack es c z' i r)) (inverse (form (nth es i).item) (slack es c z i r))
      (slack es c z' i r) (slack es c z i r) = 0 := by
    have h3 : ∑ i ∈ range es.length, ∑ r ∈ range (cells (nth es i).item), half (nth es i).item *
        cross (form (nth es i).item) (inverse (form (nth es i).item) (slack es c z' i r))
        (inverse (form (nth es i).item) (slack es c z i r)) (slack es c z' i r) (slack es c z i r) = 0 :=
      le_antisymm (sum_nonpos fun i hi => sum_nonpos fun r hr => hle i (mem_range.1 hi) r (mem_range.1 hr))
        (hc.trans_eq h1.symm)
    intro i hi r hr
    have h4 := (sum_eq_zero_iff_of_nonpos fun i hi => sum_nonpos fun r hr =>
      hle i (mem_range.1 hi) r (mem_range.1 hr)).1 h3 i (mem_range.2 hi)
    exact (sum_eq_zero_iff_of_nonpos fun r hr => hle i hi r (mem_range.1 hr)).1 h4 r (mem_range.2 hr)
  intro u hu
  refine sub_eq_zero.1 (determined_zero hs hd (y := fun u => z' u - z u) (fun i hi r hr => ?_) ?_ u hu)
  · have hB := (hs.kind i hi).form
    have h4 := (cross_inverse hB (h'.interior i hi r hr) (h.interior i hi r hr)).2
      ((mul_eq_zero.1 (hzero i hi r hr)).resolve_left (half_pos _).ne')
    have h5 : slack es c z' i r = Spin.Spec.add (slack es c z i r)
        (Spin.Spec.smul 1 (slack es 0 (fun u => z' u - z u) i r)) := by
      rw [← slack_add]
      congr 1
      funext u
      ring
    have h6 : (slack es 0 (fun u => z' u - z u) i r).t =
        fun l => (slack es c z' i r).t l + -1 * (slack es c z i r).t l := by
      funext l
      rw [h5]
      simp only [Spin.Spec.add, Spin.Spec.smul]
      ring
    refine ⟨?_, by rw [h6]; exact h4.2⟩
    have h7 := h4.1
    rw [h5] at h7
    simp only [Spin.Spec.add, Spin.Spec.smul] at h7
    linarith
  · rw [← h1]
    exact sum_eq_zero fun i hi => sum_eq_zero fun r hr => hzero i (mem_range.1 hi) r (mem_range.1 hr)

/-! ### Distance from interior points -/

theorem interior_sum {es : List (Entry ℝ)} {N : Nat} (hs : Shape es N) {g : Nat → ℝ} {c : ℝ}
    {y : Nat → ℝ} {x : Nat → Nat → El ℝ} {w z : Nat → ℝ} (h : Strict es N g c y x w) (hz : Central es N g c z) :
    (total es fun i r => half (nth es i).item * (tr (form (nth es i).item) (x i r) (slack es c z i r) +
      tr (form (nth es i).item) (inverse (form (nth es i).item) (slack es c z i r)) (slack es c y i r))) ≤
      orders es + product es c y x + curvature es N (fun u => w u - y u) / 4 := by
  have h1 := cross_eq hs (fun i r => inverse (form (nth es i).item) (slack es c z i r)) x z y c
  have h2 : ∑ u ∈ range N, (z u - y u) * (image es (fun i r => inverse (form (nth es i).item) (slack es c z i r)) u -
      image es x u) = -∑ u ∈ range N, (z u - y u) * gradients es (fun u => z u - w u) u := by
    rw [← sum_neg_distrib]
    refine sum_congr rfl fun u hu => ?_
    rw [hs.costs.gradients_sub]
    have g1 := h.equations u (mem_range.1 hu)
    have g2 := hz.stationary u (mem_range.1 hu)
    linear_combination (z u - y u) * (g2 - g1)
  have h3 := hs.costs.cross_ge (fun u => z u - y u) fun u => z u - w u
  have h4 : (fun u => z u - y u - (z u - w u)) = fun u => w u - y u := by
    funext u
    ring
  rw [h4] at h3
  rw [h2, neg_neg] at h1
  have h5 : (total es fun i r => half (nth es i).item * cross (form (nth es i).item)
      (inverse (form (nth es i).item) (slack es c z i r)) (x i r) (slack es c z i r) (slack es c y i r)) +
      (total es fun i r => half (nth es i).item * (tr (form (nth es i).item) (x i r) (slack es c z i r) +
      tr (form (nth es i).item) (inverse (form (nth es i).item) (slack es c z i r)) (slack es c y i r))) =
      orders es + product es c y x := by
    rw [← total_add]
    change _ = (total es fun i _ => order (nth es i).item) + total es fun i r => pair (nth es i).item (x i r) (slack es c y i r)
    rw [← total_add]
    refine total_congr fun i hi r hr => ?_
    have hB := (hs.kind i hi).form
    have hD := det_pos (hz.interior i hi r hr)
    have e1 : tr (form (nth es i).item) (inverse (form (nth es i).item) (slack es c z i r)) (slack es c z i r) = 2 := by
      rw [tr_inverse hB, div_eq_iff hD.ne']
      unfold sh Spec.det
      ring
    rw [order_eq, pair_eq]
    unfold cross
    rw [e1]
    ring
  linarith

/-- Inner products with points of the cone. -/
theorem below_tr (hB : IsForm B) {a : ℝ} {x y s : El ℝ} (h : Below B a x y) (hs : Interior B s) :
    a * tr B x s ≤ tr B y s := by
  have h1 := tr_nonneg hB h ⟨hs.1.le, hs.2.le⟩
  have e : (⟨y.h - a * x.h, fun l => y.t l - a * x.t l⟩ : El ℝ) = Spin.Spec.add y (Spin.Spec.smul (-a) x) := by
    simp only [Spin.Spec.add, Spin.Spec.smul, El.mk.injEq]
    exact ⟨by ring, by funext l; ring⟩
  rw [e, tr_add hB, tr_smul hB] at h1
  linarith

theorem inverse_interior (hB : IsForm B) {s : El ℝ} (h : Interior B s) : Interior B (inverse B s) := by
  have hD := det_pos h
  obtain ⟨h0, h1⟩ := h
  unfold inverse
  refine ⟨div_pos h0 hD, ?_⟩
  have e : (fun l => -s.t l / det B s) = fun l => (-1 / det B s) * s.t l := by
    funext l
    ring
  simp only [e, hB.smul, hB.smul_right]
  rw [div_pow, lt_div_iff₀ (by positivity)]
  field_simp
  linarith

/-- The distance of scaling points from the central point. -/
theorem interior_distance {es : List (Entry ℝ)} {N : Nat} (hs : Shape es N) {g : Nat → ℝ} {c : ℝ}
    {y : Nat → ℝ} {x : Nat → Nat → El ℝ} {w z : Nat → ℝ} (h : Strict es N g c y x w) (hz : Central es N g c z)
    {μ ν : ℝ} (hμ : 0 < μ) (hν : 0 < ν)
    (h1 : ∀ i < es.length, ∀ r < cells (nth es i).item, Below (form (nth es i).item) μ (point (nth es i).item r) (x i r))
    (h2 : ∀ i < es.length, ∀ r < cells (nth es i).item, Below (form (nth es i).item) ν
      (inverse (form (nth es i).item) (point (nth es i).item r)) (slack es c y i r)) :
    distance es c z ≤ (orders es + product es c y x + curvature es N (fun u => w u - y u) / 4) * (1 / μ + 1 / ν) -
      2 * orders es := by
  have h3 : distance es c z = (total es fun i r => half (nth es i).item * (tr (form (nth es i).item)
      (point (nth es i).item r) (slack es c z i r) + tr (form (nth es i).item)
      (inverse (form (nth es i).item) (point (nth es i).item r))
      (inverse (form (nth es i).item) (slack es c z i r)))) - 2 * orders es := by
    have hc : 2 * orders es = total es fun i _ => 2 * order (nth es i).item := (total_mul es 2 fun i _ => _).symm
    rw [hc, eq_sub_iff_add_eq]
    change total es _ + _ = _
    rw [← total_add]
    refine total_congr fun i hi r hr => ?_
    rw [separation_eq, order_eq]
    unfold sep
    ring
  rw [h3]
  refine sub_le_sub_right (le_trans ?_ (mul_le_mul_of_nonneg_right (interior_sum hs h hz) (by positivity))) _
  rw [mul_comm, ← total_mul]
  refine total_le fun i hi r hr => ?_
  have hB := (hs.kind i hi).form
  have g1 := hz.interior i hi r hr
  have f1 := below_tr hB (h1 i hi r hr) g1
  have f2 := below_tr hB (h2 i hi r hr) (inverse_interior hB g1)
  have p1 := tr_pos hB ⟨(h.dual i hi r hr).1.le, (h.dual i hi r hr).2.le⟩ (h.dual i hi r hr).1 g1
  have p2 := tr_pos hB ⟨(h.primal i hi r hr).1.le, (h.primal i hi r hr).2.le⟩ (h.primal i hi r hr).1
    (inverse_interior hB g1)
  rw [tr_comm hB (slack es c y i r)] at f2 p2
  set P := tr (form (nth es i).item) (x i r) (slack es c z i r)
  set P' := tr (form (nth es i).item) (inverse (form (nth es i).item) (slack es c z i r)) (slack es c y i r)
  have k1 : tr (form (nth es i).item) (point (nth es i).item r) (slack es c z i r) ≤ 1 / μ * P := by
    rw [one_div, ← div_eq_inv_mul, le_div_iff₀ hμ, mul_comm]
    exact f1
  have k2 : tr (form (nth es i).item) (inverse (form (nth es i).item) (point (nth es i).item r))
      (inverse (form (nth es i).item) (slack es c z i r)) ≤ 1 / ν * P' := by
    rw [one_div, ← div_eq_inv_mul, le_div_iff₀ hν, mul_comm]
    exact f2
  have k3 : 0 < 1 / μ * P' := by positivity
  have k4 : 0 < 1 / ν * P := by positivity
  rw [← mul_assoc, mul_comm _ (half _), mul_assoc]
  refine mul_le_mul_of_nonneg_left ?_ (half_pos _).le
  linarith

theorem image_smul {es : List (Entry ℝ)} {N : Nat} (hs : Shape es N) (a : ℝ) (x : Nat → Nat → El ℝ) {u : Nat} (hu : u < N) :
    image es (fun i r => Spin.Spec.smul a (x i r)) u = a * image es x u := by
  have h1 := image_unit hs x hu
  have h2 := image_unit hs (fun i r => Spin.Spec.smul a (x i r)) hu
  have h3 : (total es fun i r => half (nth es i).item * tr (form (nth es i).item) (Spin.Spec.smul a (x i r))
      (slack es 0 (unit u) i r)) = a * total es fun i r => half (nth es i).item * tr (form (nth es i).item) (x i r)
      (slack es 0 (unit u) i r) := by
    rw [← total_mul]
    refine total_congr fun i hi r _ => ?_
    rw [tr_smul (hs.kind i hi).form]
    ring
  rw [h3, h1] at h2
  linarith

theorem interior_smul (hB : IsForm B) {a : ℝ} (ha : 0 < a) {s : El ℝ} (h : Interior B s) :
    Interior B (Spin.Spec.smul a s) := by
  refine ⟨mul_pos ha h.1, ?_⟩
  simp only [Spin.Spec.smul, hB.smul, hB.smul_right]
  have := mul_lt_mul_of_pos_left h.2 (by positivity : 0 < a ^ 2)
  linarith

theorem slack_smul (es : List (Entry ℝ)) (a c : ℝ) (y : Nat → ℝ) (i r : Nat) :
    slack es (a * c) (fun u => a * y u) i r = Spin.Spec.smul a (slack es c y i r) := by
  unfold slack Spin.Spec.smul
  simp only [El.mk.injEq]
  refine ⟨?_, ?_⟩
  · rw [mul_sub, mul_sum, mul_assoc]
    congr 1
    exact sum_congr rfl fun j _ => by ring
  · funext l
    rw [mul_sub, mul_sum, mul_assoc]
    congr 1
    exact sum_congr rfl fun j _ => by ring

/-- Interior points of the program scaled by the barrier parameter. -/
theorem strict_scale {es : List (Entry ℝ)} {N : Nat} (hs : Shape es N) {b : Nat → ℝ} {y : Nat → ℝ}
    {x : Nat → Nat → El ℝ} {w : Nat → ℝ} (h : Strict es N b 1 y x w) {β γ : ℝ} (hβ : 0 < β) (hγ : 0 < γ) :
    Strict es N (fun u => β * b u) γ (fun u => γ * y u) (fun i r => Spin.Spec.smul β (x i r)) (fun u => β * w u) ∧
    (∀ i r, slack es γ (fun u => γ * y u) i r = Spin.Spec.smul γ (slack es 1 y i r)) ∧
    product es γ (fun u => γ * y u) (fun i r => Spin.Spec.smul β (x i r)) = β * γ * product es 1 y x := by
  have h1 : ∀ i r, slack es γ (fun u => γ * y u) i r = Spin.Spec.smul γ (slack es 1 y i r) := fun i r => by
    have := slack_smul es γ 1 y i r
    rwa [mul_one] at this
  refine ⟨⟨fun i hi r hr => ?_, fun i hi r hr => interior_smul (hs.kind i hi).form hβ (h.dual i hi r hr),
    fun u hu => ?_⟩, h1, ?_⟩
  · rw [h1]
    exact interior_smul (hs.kind i hi).form hγ (h.primal i hi r hr)
  · rw [image_smul hs _ _ hu, hs.costs.gradients_mul, ← mul_add, h.equations u hu]
  · unfold product
    simp only [h1, mul_sum]
    refine sum_congr rfl fun i hi => sum_congr rfl fun r _ => ?_
    have hB := (hs.kind i (mem_range.1 hi)).form
    rw [pair_eq, pair_eq, tr_smul hB, tr_comm hB, tr_smul hB, tr_comm hB]
    ring

end Verif.ConeCentering
