import Verif.Lemmas.SearchNewton

/-!
# The line search near the central path (C90)
-/

namespace Verif.Whole

open Finset LineSearch Centering Centering.Spec Whole.Spec Iteration.Spec
open Verif.Dual

/-- The two points of the line search. -/
theorem search_points {v : Env ℝ} (hv : ∀ x, 0 ≤ x → SolveLoop.Spec.SqrtAt v.sqrt x) (he : ∀ x, 0 < v.exp x)
    {p : Iteration.Setup ℝ} {duals : List (List Nat)} {x : Iteration.State ℝ} (hr : Ready p duals x) :
    ∃ f solver y0 y1, Iteration.factorize v p x = .ok f ∧ f.solver = some solver ∧
      solver.solveInPlace p.qr p.N (fun u => -2 * f.r.AW u) = .ok y0 ∧
      solver.solveInPlace p.qr p.N (fun u => f.r.AQc u * p.cs + p.b u * p.bs - 2 * f.r.AW u) = .ok y1 ∧
      (Polyhedral x.es → Newton x.es p.N (fun u => 0 * p.bs * p.b u) (0 * p.cs) y0 ∧
        Newton x.es p.N (fun u => 1 * p.bs * p.b u) (1 * p.cs) y1) := by
  obtain ⟨st0, x0, h0, u0⟩ := Iteration.iterate_total hv he hr 0
  obtain ⟨st1, x1, h1, u1⟩ := Iteration.iterate_total hv he hr 1
  obtain ⟨f, solver, hf, hsol, a0⟩ := iterate_split h0
  obtain ⟨f', solver', hf', hsol', a1⟩ := iterate_split h1
  rw [hf, Outcome.ok.injEq] at hf'
  subst hf'
  rw [hsol, Option.some.injEq] at hsol'
  subst hsol'
  simp only [Iteration.advance, SolveLoop.bind_eq_ok] at a0 a1
  obtain ⟨y0, b0, q0, -, e0, -, c0⟩ := a0
  obtain ⟨y1, b1, q1, -, e1, -, c1⟩ := a1
  simp only [Outcome.ok.injEq, Prod.mk.injEq] at c0 c1
  have d0 : st0.y = y0 := by rw [← c0.1]
  have d1 : st1.y = y1 := by rw [← c1.1]
  refine ⟨f, solver, y0, y1, hf, hsol, ?_, ?_, fun hp => ⟨?_, ?_⟩⟩
  · rw [← b0]
    congr 1
    funext u
    unfold Iteration.rhs
    ring
  · rw [← b1]
    congr 1
    funext u
    unfold Iteration.rhs
    ring
  · rw [← d0]
    exact newton hr hp h0 u0
  · rw [← d1]
    exact newton hr hp h1 u1

/-- The directions of iterations are those of the line search. -/
theorem dir_rowDir {v : Env ℝ} (hv : ∀ x, 0 ≤ x → SolveLoop.Spec.SqrtAt v.sqrt x) (he : ∀ x, 0 < v.exp x)
    {p : Iteration.Setup ℝ} {duals : List (List Nat)} {x x' : Iteration.State ℝ} (hr : Ready p duals x)
    (hp : Polyhedral x.es) {y0 y1 : Nat → ℝ} (h0 : Newton x.es p.N (fun u => 0 * p.bs * p.b u) (0 * p.cs) y0)
    (h1 : Newton x.es p.N (fun u => 1 * p.bs * p.b u) (1 * p.cs) y1) {t : ℝ} {st : Iteration.Step ℝ}
    (h : Iteration.iterate v p t x = .ok (some (st, x'))) :
    ∀ i < x.es.length, ∀ r < (con (nth x.es i).item).n,
      dir x.es (t * p.cs) st.y i r = rowDir p.cs y0 y1 (nth x.es i) t r := by
  have e1 : Newton x.es p.N (fun u => t * p.bs * p.b u) (t * p.cs) st.y := newton hr hp h (unregularized hv he hr h)
  have hs := shape_of hr hp
  have hw := weight_pos hr.good hp
  intro i hi r hr'
  have e2 : dir x.es (t * p.cs) (fun u => y0 u + t * (y1 u - y0 u)) i r = rowDir p.cs y0 y1 (nth x.es i) t r := rfl
  rw [← e2]
  exact newton_unique hs hw e1 (newton_line hs h0 h1 t) i hi r hr'

theorem searched_of {es : List (Entry ℝ)} {N : Nat} (hs : Shape es N) :
    ∀ e ∈ es, Searched e ∧ ∀ v ∈ e.vars, v < N := by
  intro e he
  obtain ⟨i, hi⟩ := List.getElem?_of_mem he
  have hlt := (List.getElem?_eq_some_iff.1 hi).1
  have := nth_of hi
  subst this
  refine ⟨?_, (hs.vars _ he).2⟩
  rcases hs.kind i hlt with ⟨o, w, ho, hn, hm⟩ | ⟨n, Q, ho, -, -⟩
  · exact Or.inl ⟨o, w, ho, hn, hm.le⟩
  · exact Or.inr ⟨n, Q, ho⟩

/-- A number between two others. -/
theorem abs_line {d e a k t m δ : ℝ} (h1 : |d + k * e| ≤ δ) (h2 : |d + t * e| ≤ δ) (h3 : k ≤ m) (h4 : m ≤ t) (ha : a = d + m * e) :
    |a| ≤ δ := by
  subst ha
  rw [abs_le] at *
  rcases le_total 0 e with h | h
  · constructor <;> nlinarith [mul_le_mul_of_nonneg_right h3 h, mul_le_mul_of_nonneg_right h4 h]
  · constructor <;> nlinarith [mul_le_mul_of_nonpos_right h3 h, mul_le_mul_of_nonpos_right h4 h]

/-- A longer parameter stays within the bound. -/
theorem grow_bound {d0 d1 k δ n : ℝ} (hδ : 0 < δ) (hn : 8 * n * δ ^ 2 ≤ 1) (hn1 : 1 ≤ n) (h0 : d0 ^ 2 ≤ n)
    (hk : (d0 + k * (d1 - d0)) ^ 2 ≤ δ ^ 2 / 4) :
    |d0 + (1 + δ ^ 2) * k * (d1 - d0)| ≤ δ := by
  set D := d0 + k * (d1 - d0) with hD
  have e1 : d0 + (1 + δ ^ 2) * k * (d1 - d0) = D + δ ^ 2 * (D - d0) := by rw [hD]; ring
  have h1 : |D| ≤ δ / 2 := abs_le_of_sq_le_sq (by rw [div_pow]; linarith) (by linarith)
  have h2 : |δ * d0| ≤ 3 / 8 := by
    refine abs_le_of_sq_le_sq ?_ (by norm_num)
    rw [mul_pow]
    nlinarith [mul_le_mul_of_nonneg_left h0 (sq_nonneg δ)]
  have h3 : δ ^ 2 ≤ 1 / 8 := by nlinarith [sq_nonneg δ]
  rw [e1]
  have h4 : D + δ ^ 2 * (D - d0) = (1 + δ ^ 2) * D + -(δ * (δ * d0)) := by ring
  rw [h4]
  refine (abs_add_le _ _).trans ?_
  rw [abs_neg, abs_mul, abs_mul, abs_of_pos hδ, abs_of_pos (by positivity : (0 : ℝ) < 1 + δ ^ 2)]
  nlinarith [mul_le_mul_of_nonneg_left h1 (by positivity : (0 : ℝ) ≤ 1 + δ ^ 2), mul_le_mul_of_nonneg_left h2 hδ.le]

/-- Near the central path the line search increases the barrier parameter `k` by a factor, and finds a direction within the
bound. -/
theorem search_grow {v : Env ℝ} (hv : ∀ x, 0 ≤ x → SolveLoop.Spec.SqrtAt v.sqrt x) (hexp : v.exp = Real.exp)
    {p : Iteration.Setup ℝ} {duals : List (List Nat)} {x x' : Iteration.State ℝ} (hr : Ready p duals x)
    (hp : Polyhedral x.es) {S : Search ℝ} (hδ : 0 < S.dmax) (hn : 8 * count x.es * S.dmax ^ 2 ≤ 1) (hn1 : 1 ≤ count x.es)
    {k K : ℝ} (hk : 0 < k) (hkK : k ≤ K) (hK : K ≤ S.big) {st : Iteration.Step ℝ}
    (h : Iteration.iterate v p k x = .ok (some (st, x'))) (hst : st.normsqrd ≤ S.dmax ^ 2 / 4) :
    ∃ f solver u, Iteration.factorize v p x = .ok f ∧ f.solver = some solver ∧ searchMu S p x.es f.r solver = .ok u ∧
      min ((1 + S.dmax ^ 2) * k) K ≤ u ∧
      ∀ k', min ((1 + S.dmax ^ 2) * k) K ≤ k' → k' ≤ u → ∀ st' x', Iteration.iterate v p k' x = .ok (some (st', x')) →
        ∀ i < x.es.length, ∀ r < (con (nth x.es i).item).n, |dir x.es (k' * p.cs) st'.y i r| ≤ S.dmax := by
  have he : ∀ x, 0 < v.exp x := fun x => hexp ▸ Real.exp_pos x
  have hs := shape_of hr hp
  obtain ⟨f, solver, y0, y1, hf, hsol, hy0, hy1, hN⟩ := search_points hv he hr
  obtain ⟨h0, h1⟩ := hN hp
  set t := min ((1 + S.dmax ^ 2) * k) K with ht
  have htk : k ≤ t := le_min (by nlinarith [sq_nonneg S.dmax]) hkK
  have ht' : t ≤ (1 + S.dmax ^ 2) * k := min_le_left _ _
  have htb : |t| ≤ S.big := by
    rw [abs_of_pos (hk.trans_le htk)]
    exact (min_le_right _ _).trans hK
  have hit := (iterated hexp hr hp h (unregularized hv he hr h)).1
  have hdk := dir_rowDir hv he hr hp h0 h1 h
  have hz : ∀ i r, dir x.es (0 * p.cs) y0 i r = rowDir p.cs y0 y1 (nth x.es i) 0 r := fun i r => by
    simp only [dir, slack, rowDir, zero_mul, add_zero]
  have hzero := newton_zero hs (fun u _ => by ring) (zero_mul p.cs) h0
  have hD : ∀ i < x.es.length, ∀ r < (con (nth x.es i).item).n,
      rowDir p.cs y0 y1 (nth x.es i) k r ^ 2 ≤ S.dmax ^ 2 / 4 ∧ rowDir p.cs y0 y1 (nth x.es i) 0 r ^ 2 ≤ count x.es := by
    intro i hi r hr'
    constructor
    · rw [← hdk i hi r hr']
      refine (term_le (u := dir x.es (k * p.cs) st.y) (m := fun i => (con (nth x.es i).item).n) hi hr').trans ?_
      exact hit.sum.symm.le.trans hst
    · rw [← hz i r]
      exact (term_le (u := dir x.es (0 * p.cs) y0) (m := fun i => (con (nth x.es i).item).n) hi hr').trans hzero
  have habs : ∀ i < x.es.length, ∀ r < (con (nth x.es i).item).n, |rowDir p.cs y0 y1 (nth x.es i) k r| ≤ S.dmax / 2 := by
    intro i hi r hr'
    exact abs_le_of_sq_le_sq (by rw [div_pow]; have := (hD i hi r hr').1; linarith) (by linarith)
  have hadm : ∀ i < x.es.length, ∀ r < (con (nth x.es i).item).n, |rowDir p.cs y0 y1 (nth x.es i) t r| ≤ S.dmax := by
    intro i hi r hr'
    obtain ⟨g1, g2⟩ := hD i hi r hr'
    have g3 := habs i hi r hr'
    rw [rowDir_line] at g1 g3
    exact abs_line (by linarith) (grow_bound hδ hn hn1 g2 g1) htk ht' (rowDir_line _ _ _ _ _ _)
  have hmem : ∀ e ∈ x.es, ∃ i < x.es.length, nth x.es i = e := fun e he => by
    obtain ⟨i, hi⟩ := List.getElem?_of_mem he
    exact ⟨i, (List.getElem?_eq_some_iff.1 hi).1, nth_of hi⟩
  obtain ⟨l', u', e1, e2, e3, e4, e5, e6⟩ := entries_search hδ.le htb (cs := p.cs) (y0 := y0) (y1 := y1) x.es (searched_of hs)
    (fun e he r hr' => by
      obtain ⟨i, hi, rfl⟩ := hmem e he
      exact hadm i hi r hr')
    (fun e he r hr' hfl => by
      obtain ⟨i, hi, rfl⟩ := hmem e he
      have := habs i hi r hr'
      rw [rowDir_line, ← hfl, sub_self, mul_zero, add_zero] at this ⊢
      linarith) (l := -S.big) (u := S.big) (abs_le.1 htb).1 (abs_le.1 htb).2
  refine ⟨f, solver, u', hf, hsol, ?_, e4, fun k' hk1 hk2 st' x' h' i hi r hr' => ?_⟩
  · have hle : (Ext.fin l').le (Ext.fin u') = true := by
      simp only [Ext.le, Ext.lt, Bool.not_eq_true', decide_eq_false_iff_not, not_lt]
      exact e3.trans e4
    have e1' : searchEntries S (p.cs * 0) (p.cs * 1) p.N y0 y1 x.es (Interval.default S.big) =
      .ok (some ⟨.fin l', .fin u'⟩) := e1
    simp only [searchMu, hy0, hy1, e1', Outcome.bind_ok, searchResult, hle, if_true]
  · rw [dir_rowDir hv he hr hp h0 h1 h' i hi r hr']
    refine e6 k' ?_ (e3.trans hk1) hk2 _ (nth_mem hi) r hr'
    rw [abs_of_pos (hk.trans_le (htk.trans hk1))]
    exact hk2.trans e5

/-- After a direction within the bound the next one for the same parameter is short. -/
theorem search_next {v : Env ℝ} (hv : ∀ x, 0 ≤ x → SolveLoop.Spec.SqrtAt v.sqrt x) (hexp : v.exp = Real.exp)
    (hs : ∀ n, MatrixExp.Spec.Solves (v.solve n)) {p : Iteration.Setup ℝ} {duals : List (List Nat)}
    {x x' x'' : Iteration.State ℝ} (hr : Ready p duals x) (hp : Polyhedral x.es) {δ : ℝ}
    (hn : 8 * count x.es * δ ^ 2 ≤ 1) (hn1 : 1 ≤ count x.es) {k : ℝ} {st st' : Iteration.Step ℝ}
    (h : Iteration.iterate v p k x = .ok (some (st, x'))) (h' : Iteration.iterate v p k x' = .ok (some (st', x'')))
    (hd : ∀ i < x.es.length, ∀ r < (con (nth x.es i).item).n, |dir x.es (k * p.cs) st.y i r| ≤ δ) (hδ : 0 ≤ δ) :
    st'.normsqrd ≤ δ ^ 2 / 4 := by
  have he : ∀ x, 0 < v.exp x := fun x => hexp ▸ Real.exp_pos x
  obtain ⟨h1, h2⟩ := iterated hexp hr hp h (unregularized hv he hr h)
  obtain ⟨h3, -⟩ := Iteration.ready_next hv he hs hr h (unregularized hv he hr h) fun e he' hd' => by
    rcases hp e he' with ⟨o, w, ho⟩ | ⟨n, Q, ho⟩ <;> rw [ho] at hd' <;> exact hd'.elim
  have h4 := (iterated hexp h3 h2 h' (unregularized hv he h3 h')).1
  have hsq : st.normsqrd ≤ count x.es * δ ^ 2 := by
    have : count x.es = rows x.es fun _ _ => 1 := by simp [rows, count]
    rw [h1.sum, this, mul_comm (rows x.es _) (δ ^ 2), ← rows_mul]
    refine rows_le fun i hi r hr' => ?_
    rw [mul_one]
    have := hd i hi r hr'
    exact sq_le_sq' (neg_le_of_abs_le this) (le_of_abs_le this)
  have hδ1 : δ ^ 2 ≤ 1 / 8 := by nlinarith [sq_nonneg δ]
  have h5 := iterated_quadratic_of h1 h4 (fun i hi r hr' => ?_) (by nlinarith) hd
  · have : 2 * δ ^ 2 * st.normsqrd ≤ 2 * δ ^ 2 * (count x.es * δ ^ 2) := mul_le_mul_of_nonneg_left hsq (by positivity)
    nlinarith [sq_nonneg δ]
  · have hA : st.norm ≤ 1 := iterated_le_one h1 (by linarith)
    have h0 : 0 ≤ st.norm := (abs_nonneg _).trans (h1.bound i hi r hr')
    exact (SolveLoop.C29_step_size st.norm).2.2.1.2 (by nlinarith)

end Verif.Whole
