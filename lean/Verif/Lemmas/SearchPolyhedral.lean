import Verif.Lemmas.Centering
import Verif.Lemmas.LineSearch
import Verif.Model.WholeSearch

/-!
# The line search of a program of linear inequalities and quadratic costs (C90)
-/

namespace Verif.Whole

open Finset LineSearch Centering.Spec Whole.Spec
open Verif.Dual

/-- The direction in row `r` of a constraint, for the barrier parameter `t` and the point with parameter `t` on the line
through `y0` and `y1`. -/
noncomputable def rowDir (cs : ℝ) (y0 y1 : Nat → ℝ) (e : Entry ℝ) (t : ℝ) (r : Nat) : ℝ :=
  1 - weight e.item r * (t * cs * (con e.item).c r -
    ∑ j ∈ range (con e.item).m, (con e.item).A r j *
      (y0 (e.vars.getD j 0) + t * (y1 (e.vars.getD j 0) - y0 (e.vars.getD j 0))))

/-- Directions depend on the parameter in an affine way. -/
theorem rowDir_line (cs : ℝ) (y0 y1 : Nat → ℝ) (e : Entry ℝ) (t : ℝ) (r : Nat) :
    rowDir cs y0 y1 e t r = rowDir cs y0 y1 e 0 r + t * (rowDir cs y0 y1 e 1 r - rowDir cs y0 y1 e 0 r) := by
  unfold rowDir
  simp only [zero_mul, add_zero, one_mul, add_sub_cancel, zero_sub]
  have : ∑ j ∈ range (con e.item).m, (con e.item).A r j *
      (y0 (e.vars.getD j 0) + t * (y1 (e.vars.getD j 0) - y0 (e.vars.getD j 0))) =
      (∑ j ∈ range (con e.item).m, (con e.item).A r j * y0 (e.vars.getD j 0)) +
        t * ((∑ j ∈ range (con e.item).m, (con e.item).A r j * y1 (e.vars.getD j 0)) -
          ∑ j ∈ range (con e.item).m, (con e.item).A r j * y0 (e.vars.getD j 0)) := by
    rw [← sum_sub_distrib, mul_sum, ← sum_add_distrib]
    exact sum_congr rfl fun j _ => by ring
  rw [this]
  ring

theorem gather_ok' {N : Nat} {y : Nat → ℝ} {vars : List Nat} (h : ∀ v ∈ vars, v < N) :
    gather N y vars = .ok fun j => y (vars.getD j 0) := by
  unfold gather
  rw [if_neg]
  rintro ⟨v, h1, h2⟩
  exact absurd (h v h1) (by omega)

/-- A constraint that is searched. -/
def Searched (e : Entry ℝ) : Prop :=
  (∃ o w, e.item = .linear o w ∧ 0 < o.n ∧ o.m ≤ e.vars.length) ∨ ∃ n Q, e.item = .cost n Q

theorem success_of_contains {b : Interval ℝ} {t : ℝ} (h1 : GeL b.lower t) (h2 : LeU b.upper t) : b.success = true := by
  obtain ⟨l, u⟩ := b
  cases l <;> cases u <;> simp_all [Interval.success, Ext.lt, GeL, LeU]
  exact h1.trans h2

/-- The line search of a linear inequality. -/
theorem linear_search {o : Linear.Con ℝ} {w : Linear.Ws ℝ} (hn : 0 < o.n) {cs : ℝ} {len : Nat} (hm : o.m ≤ len)
    {S : Search ℝ} {y0 y1 : Nat → ℝ} {vars : List Nat} :
    itemSearch S (cs * 0) (cs * 1) len (fun j => y0 (vars.getD j 0)) (fun j => y1 (vars.getD j 0)) (.linear o w) =
      .ok (!(findLoop S.dmax (rowDir cs y0 y1 ⟨vars, .linear o w⟩ 0)
          (fun r => rowDir cs y0 y1 ⟨vars, .linear o w⟩ 1 r - rowDir cs y0 y1 ⟨vars, .linear o w⟩ 0 r)
          (Interval.default S.big) o.n).success,
        findLoop S.dmax (rowDir cs y0 y1 ⟨vars, .linear o w⟩ 0)
          (fun r => rowDir cs y0 y1 ⟨vars, .linear o w⟩ 1 r - rowDir cs y0 y1 ⟨vars, .linear o w⟩ 0 r)
          (Interval.default S.big) o.n) := by
  obtain ⟨h1, h2⟩ := dirAt_eq (R := ℝ) ⟨o, w.W, cs * 0, cs * 1, fun j => y0 (vars.getD j 0), fun j => y1 (vars.getD j 0)⟩ hm
  have e0 : LineSearch.Spec.dir (R := ℝ) ⟨o, w.W, cs * 0, cs * 1, fun j => y0 (vars.getD j 0),
      fun j => y1 (vars.getD j 0)⟩ 0 = rowDir cs y0 y1 ⟨vars, .linear o w⟩ 0 := by
    funext r
    simp only [LineSearch.Spec.dir, rowDir, weight, con, zero_mul, add_zero]
    ring
  have e1 : LineSearch.Spec.dir (R := ℝ) ⟨o, w.W, cs * 0, cs * 1, fun j => y0 (vars.getD j 0),
      fun j => y1 (vars.getD j 0)⟩ 1 = rowDir cs y0 y1 ⟨vars, .linear o w⟩ 1 := by
    funext r
    simp only [LineSearch.Spec.dir, rowDir, weight, con]
    ring
  rw [e0] at h1
  rw [e1] at h2
  simp only at h1 h2
  simp only [itemSearch, performLineSearch, h1, h2, Outcome.bind_ok]

/-- The line search of a constraint whose rows are all within the bound for `t₀`, and strictly so if they do not depend on
the parameter. -/
theorem item_search {e : Entry ℝ} (he : Searched e) {S : Search ℝ} (hd : 0 ≤ S.dmax) {cs t₀ : ℝ} {y0 y1 : Nat → ℝ}
    (hb : |t₀| ≤ S.big) (h0 : ∀ r < (con e.item).n, |rowDir cs y0 y1 e t₀ r| ≤ S.dmax)
    (hf : ∀ r < (con e.item).n, rowDir cs y0 y1 e 0 r = rowDir cs y0 y1 e 1 r → |rowDir cs y0 y1 e t₀ r| < S.dmax) :
    ∃ I, itemSearch S (cs * 0) (cs * 1) e.vars.length (fun j => y0 (e.vars.getD j 0)) (fun j => y1 (e.vars.getD j 0))
        e.item = .ok (false, I) ∧ I.lower ≠ .nan ∧ I.upper ≠ .nan ∧
      ∀ t, |t| ≤ S.big → ((GeL I.lower t ∧ LeU I.upper t) ↔ ∀ r < (con e.item).n, |rowDir cs y0 y1 e t r| ≤ S.dmax) := by
  obtain ⟨vars, item⟩ := e
  rcases he with ⟨o, w, ho, hn, hm⟩ | ⟨n, Q, ho⟩
  · simp only at ho
    subst ho
    simp only at hm h0 hf ⊢
    have hcon : con (Item.linear o w) = o := rfl
    rw [hcon] at h0 hf ⊢
    obtain ⟨n, hn'⟩ : ∃ n, o.n = n + 1 := ⟨o.n - 1, by omega⟩
    obtain ⟨g1, g2, g3, -⟩ := findLoop_spec (d0 := rowDir cs y0 y1 ⟨vars, .linear o w⟩ 0)
      (delta := fun r => rowDir cs y0 y1 ⟨vars, .linear o w⟩ 1 r - rowDir cs y0 y1 ⟨vars, .linear o w⟩ 0 r)
      hd (Interval.default S.big) n fun i hi hz => by
        have h1 : rowDir cs y0 y1 ⟨vars, .linear o w⟩ 0 i = rowDir cs y0 y1 ⟨vars, .linear o w⟩ 1 i := by linarith
        have h2 := hf i (by omega) h1
        rw [rowDir_line, ← h1, sub_self, mul_zero, add_zero] at h2
        exact h2.ne
    rw [← hn'] at g1 g2 g3
    have key : ∀ t, (GeL (findLoop S.dmax (rowDir cs y0 y1 ⟨vars, .linear o w⟩ 0)
        (fun r => rowDir cs y0 y1 ⟨vars, .linear o w⟩ 1 r - rowDir cs y0 y1 ⟨vars, .linear o w⟩ 0 r)
        (Interval.default S.big) o.n).lower t ∧ LeU (findLoop S.dmax (rowDir cs y0 y1 ⟨vars, .linear o w⟩ 0)
        (fun r => rowDir cs y0 y1 ⟨vars, .linear o w⟩ 1 r - rowDir cs y0 y1 ⟨vars, .linear o w⟩ 0 r)
        (Interval.default S.big) o.n).upper t) ↔ ∀ r < o.n, |rowDir cs y0 y1 ⟨vars, .linear o w⟩ t r| ≤ S.dmax := by
      intro t
      rw [g3 t]
      constructor
      · intro h r hr
        rw [rowDir_line]
        exact h r (by omega)
      · intro h r hr
        have := h r (by omega)
        rwa [rowDir_line] at this
    have hsuc := success_of_contains ((key t₀).2 h0).1 ((key t₀).2 h0).2
    refine ⟨_, ?_, g1, g2, fun t _ => key t⟩
    rw [linear_search hn hm, hsuc]
    rfl
  · simp only at ho
    subst ho
    have hcon : (con (Item.cost n Q)).n = 0 := rfl
    refine ⟨_, rfl, by simp [Interval.default], by simp [Interval.default], fun t ht => ?_⟩
    have := abs_le.1 ht
    refine ⟨fun _ r hr => absurd hr (by simp only [hcon]; omega), fun _ => ?_⟩
    simp only [Interval.default, GeL, LeU]
    exact this

/-- The line search of the program. -/
theorem entries_search {S : Search ℝ} (hd : 0 ≤ S.dmax) {cs t₀ : ℝ} {y0 y1 : Nat → ℝ} (hb : |t₀| ≤ S.big) {N : Nat}
    (es : List (Entry ℝ)) (he : ∀ e ∈ es, Searched e ∧ ∀ v ∈ e.vars, v < N)
    (h0 : ∀ e ∈ es, ∀ r < (con e.item).n, |rowDir cs y0 y1 e t₀ r| ≤ S.dmax)
    (hf : ∀ e ∈ es, ∀ r < (con e.item).n, rowDir cs y0 y1 e 0 r = rowDir cs y0 y1 e 1 r →
      |rowDir cs y0 y1 e t₀ r| < S.dmax) : ∀ {l u : ℝ}, l ≤ t₀ → t₀ ≤ u →
    ∃ l' u', searchEntries S (cs * 0) (cs * 1) N y0 y1 es ⟨.fin l, .fin u⟩ = .ok (some ⟨.fin l', .fin u'⟩) ∧
      l ≤ l' ∧ l' ≤ t₀ ∧ t₀ ≤ u' ∧ u' ≤ u ∧
      ∀ t, |t| ≤ S.big → l' ≤ t → t ≤ u' → ∀ e ∈ es, ∀ r < (con e.item).n, |rowDir cs y0 y1 e t r| ≤ S.dmax := by
  induction es with
  | nil => exact fun h1 h2 => ⟨_, _, rfl, le_rfl, h1, h2, le_rfl, fun _ _ _ _ e he => by simp at he⟩
  | cons e es ih =>
    intro l u h1 h2
    obtain ⟨I, g1, g2, g3, g4⟩ := item_search (he e List.mem_cons_self).1 hd hb (h0 e List.mem_cons_self)
      (hf e List.mem_cons_self)
    obtain ⟨g5, g6⟩ := (g4 t₀ hb).2 (h0 e List.mem_cons_self)
    have hl : ∃ l₁, (meet ⟨.fin l, .fin u⟩ I).lower = .fin l₁ ∧ l ≤ l₁ ∧ l₁ ≤ t₀ ∧ ∀ t, l₁ ≤ t → GeL I.lower t := by
      obtain ⟨a, b⟩ := I
      simp only at g2 g5
      cases a with
      | nan => exact absurd rfl g2
      | pinf => exact absurd g5 (by simp [GeL])
      | ninf => exact ⟨l, rfl, le_rfl, h1, fun t _ => trivial⟩
      | fin a =>
        simp only [meet, Ext.lt]
        by_cases hla : l < a
        · exact ⟨a, by simp [hla], hla.le, g5, fun t ht => ht⟩
        · exact ⟨l, by simp [hla], le_rfl, h1, fun t ht => (not_lt.1 hla).trans ht⟩
    have hu : ∃ u₁, (meet ⟨.fin l, .fin u⟩ I).upper = .fin u₁ ∧ u₁ ≤ u ∧ t₀ ≤ u₁ ∧ ∀ t, t ≤ u₁ → LeU I.upper t := by
      obtain ⟨a, b⟩ := I
      simp only at g3 g6
      cases b with
      | nan => exact absurd rfl g3
      | ninf => exact absurd g6 (by simp [LeU])
      | pinf => exact ⟨u, rfl, le_rfl, h2, fun t _ => trivial⟩
      | fin b =>
        simp only [meet, Ext.lt]
        by_cases hub : b < u
        · exact ⟨b, by simp [hub], hub.le, g6, fun t ht => ht⟩
        · exact ⟨u, by simp [hub], le_rfl, h2, fun t ht => ht.trans (not_lt.1 hub)⟩
    obtain ⟨l₁, a1, a2, a3, a4⟩ := hl
    obtain ⟨u₁, b1, b2, b3, b4⟩ := hu
    obtain ⟨l', u', c1, c2, c3, c4, c5, c6⟩ := ih (fun e' h => he e' (List.mem_cons_of_mem _ h))
      (fun e' h => h0 e' (List.mem_cons_of_mem _ h)) (fun e' h => hf e' (List.mem_cons_of_mem _ h)) a3 b3
    have hmeet : meet ⟨.fin l, .fin u⟩ I = ⟨.fin l₁, .fin u₁⟩ := by
      rw [← a1, ← b1]
    refine ⟨l', u', ?_, a2.trans c2, c3, c4, c5.trans b2, fun t ht e1 e2 e' he' => ?_⟩
    · simp only [searchEntries, gather_ok' (he e List.mem_cons_self).2, Outcome.bind_ok, g1, Bool.false_eq_true, if_false,
        hmeet, c1]
    · rcases List.mem_cons.1 he' with rfl | he'
      · exact (g4 t ht).1 ⟨a4 t (c2.trans e1), b4 t (e2.trans c5)⟩
      · exact c6 t ht e1 e2 e' he'

/-- The line search is defined for programs of all kinds of constraints, if the two linear systems are solved. -/
theorem entries_defined {S : Search ℝ} {cs : ℝ} {y0 y1 : Nat → ℝ} {N : Nat} (es : List (Entry ℝ))
    (he : ∀ e ∈ es, (∀ v ∈ e.vars, v < N) ∧ ∀ o w, e.item = .linear o w → o.m ≤ e.vars.length) :
    ∀ {out : Interval ℝ}, out.lower ≠ .ninf → out.upper ≠ .pinf →
    ∃ o, searchEntries S (cs * 0) (cs * 1) N y0 y1 es out = .ok o ∧ ∃ t, searchResult o = .ok t := by
  induction es with
  | nil =>
    intro out h1 h2
    refine ⟨some out, rfl, ?_⟩
    obtain ⟨l, u⟩ := out
    simp only [searchResult]
    cases l <;> cases u <;> simp_all [Ext.le, Ext.lt]
    split_ifs <;> exact ⟨_, rfl⟩
  | cons e es ih =>
    intro out h1 h2
    have hr : ∃ r, itemSearch S (cs * 0) (cs * 1) e.vars.length (fun j => y0 (e.vars.getD j 0))
        (fun j => y1 (e.vars.getD j 0)) e.item = .ok r := by
      cases hx : e.item with
      | linear o w =>
        have hm := (he e List.mem_cons_self).2 o w hx
        obtain ⟨g1, g2⟩ := dirAt_eq (R := ℝ) ⟨o, w.W, cs * 0, cs * 1, fun j => y0 (e.vars.getD j 0),
          fun j => y1 (e.vars.getD j 0)⟩ hm
        simp only at g1 g2
        exact ⟨_, by simp only [itemSearch, performLineSearch, g1, g2, Outcome.bind_ok]; rfl⟩
      | _ => exact ⟨_, rfl⟩
    obtain ⟨r, hr⟩ := hr
    simp only [searchEntries, gather_ok' (he e List.mem_cons_self).1, Outcome.bind_ok, hr]
    by_cases hf : r.1 = true
    · rw [if_pos hf]
      exact ⟨none, rfl, -1, rfl⟩
    · rw [if_neg hf]
      exact ih (fun e' h => he e' (List.mem_cons_of_mem _ h)) (max_ne_ninf h1) (min_ne_pinf h2)

end Verif.Whole
