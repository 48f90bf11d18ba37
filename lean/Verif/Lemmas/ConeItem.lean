import Verif.Lemmas.Centering
import Verif.Lemmas.ConeStep

/-!
# Lemmas for C92: one constraint
-/

namespace Verif.ConeCentering

open Finset Verif.Dual Iteration.Spec Whole.Spec Spec Spin
open Spin.Spec (IsForm Interior Same IsFun)
open Soc (El)
open Soc.Spec (Prepared Taken)

/-- What a row counts for: half of a cone. -/
noncomputable def half : Item ℝ → ℝ
  | .linear _ _ => 1 / 2
  | _ => 1

theorem half_pos (it : Item ℝ) : 0 < half it := by
  cases it <;> norm_num [half]

theorem pair_eq (it : Item ℝ) (x y : El ℝ) : pair it x y = half it * Spin.Spec.tr (form it) x y := by
  cases it <;> simp [pair, half, form, Spin.Spec.tr, Spin.Spec.mul]

theorem order_eq (it : Item ℝ) : order it = half it * 2 := by
  cases it <;> simp [order, half]

theorem separation_eq (it : Item ℝ) (w s : El ℝ) : separation it w s = half it * sep (form it) w s := by
  unfold separation sep
  rw [pair_eq, pair_eq, order_eq]
  ring

/-- What is needed of a constraint with `len` variables. -/
def Kind (it : Item ℝ) (len : Nat) : Prop :=
  (∃ o w, it = .linear o w ∧ 0 < o.n ∧ o.m = len) ∨
  (∃ o w, it = .soc o w ∧ Soc.Spec.Complete o ∧ o.m = len) ∨
  (∃ o w, it = .quad o w ∧ QuadCone.Spec.Good o ∧ IsForm (QuadCone.inner o.n o.Q) ∧ o.m = len) ∨
  ∃ n Q, it = .cost n Q ∧ n = len ∧ QuadCone.Spec.Psd n Q

/-- The same constraint with another scaling point. -/
def Kin (it it' : Item ℝ) : Prop :=
  (∃ o w w', it = .linear o w ∧ it' = .linear o w') ∨ (∃ o w w', it = .soc o w ∧ it' = .soc o w') ∨
  (∃ o w w', it = .quad o w ∧ it' = .quad o w') ∨ ∃ n Q, it = .cost n Q ∧ it' = .cost n Q

theorem zero_form : IsForm (fun _ _ : Nat → ℝ => (0 : ℝ)) :=
  ⟨fun _ _ => rfl, fun _ _ _ => by simp, fun _ _ _ => by simp, fun _ => le_rfl⟩

theorem Kind.form {it : Item ℝ} {len : Nat} (h : Kind it len) : IsForm (form it) := by
  rcases h with ⟨o, w, rfl, -⟩ | ⟨o, w, rfl, -⟩ | ⟨o, w, rfl, -, h, -⟩ | ⟨n, Q, rfl, -⟩
  · exact zero_form
  · exact Soc.dot_form o.n
  · exact h
  · exact zero_form

structure Kin' (it it' : Item ℝ) : Prop where
  cells : cells it' = cells it
  form : form it' = form it
  half : half it' = half it
  column : column it' = column it
  affine : affine it' = affine it
  gradient : ∀ y, Centering.Spec.gradient y it' = Centering.Spec.gradient y it

theorem Kin.data {it it' : Item ℝ} (h : Kin it it') : Kin' it it' := by
  rcases h with ⟨o, w, w', rfl, rfl⟩ | ⟨o, w, w', rfl, rfl⟩ | ⟨o, w, w', rfl, rfl⟩ | ⟨n, Q, rfl, rfl⟩ <;>
    exact ⟨rfl, rfl, rfl, rfl, rfl, fun _ => rfl⟩

theorem Kin'.pair {it it' : Item ℝ} (h : Kin' it it') (x y : El ℝ) : pair it' x y = pair it x y := by
  rw [pair_eq, pair_eq, h.form, h.half]

theorem Kin.kind {it it' : Item ℝ} {len : Nat} (h : Kin it it') (hk : Kind it len) : Kind it' len := by
  rcases h with ⟨o, w, w', rfl, rfl⟩ | ⟨o, w, w', rfl, rfl⟩ | ⟨o, w, w', rfl, rfl⟩ | ⟨n, Q, rfl, rfl⟩
  · rcases hk with ⟨o₁, w₁, h1, h2⟩ | ⟨o₁, w₁, h1, h2⟩ | ⟨o₁, w₁, h1, h2⟩ | ⟨n, Q, h1, h2⟩ <;> cases h1
    exact Or.inl ⟨_, _, rfl, h2⟩
  · rcases hk with ⟨o₁, w₁, h1, h2⟩ | ⟨o₁, w₁, h1, h2⟩ | ⟨o₁, w₁, h1, h2⟩ | ⟨n, Q, h1, h2⟩ <;> cases h1
    exact Or.inr (Or.inl ⟨_, _, rfl, h2⟩)
  · rcases hk with ⟨o₁, w₁, h1, h2⟩ | ⟨o₁, w₁, h1, h2⟩ | ⟨o₁, w₁, h1, h2⟩ | ⟨n, Q, h1, h2⟩ <;> cases h1
    exact Or.inr (Or.inr (Or.inl ⟨_, _, rfl, h2⟩))
  · exact hk

theorem Kind.vector {it : Item ℝ} {len : Nat} (h : Kind it len) :
    (∃ o w, it = .linear o w) ∨ (∃ o w, it = .soc o w) ∨ (∃ o w, it = .quad o w) ∨ ∃ n Q, it = .cost n Q := by
  rcases h with ⟨o, w, h, -⟩ | ⟨o, w, h, -⟩ | ⟨o, w, h, -⟩ | ⟨n, Q, h, -⟩
  · exact Or.inl ⟨o, w, h⟩
  · exact Or.inr (Or.inl ⟨o, w, h⟩)
  · exact Or.inr (Or.inr (Or.inl ⟨o, w, h⟩))
  · exact Or.inr (Or.inr (Or.inr ⟨n, Q, h⟩))

/-- The slack in a cell. -/
noncomputable def slackAt (it : Item ℝ) (len : Nat) (c : ℝ) (y : Nat → ℝ) (r : Nat) : El ℝ :=
  slackOf (affine it r) (column it r) len c y

/-! ### Residuals -/

/-- The residual of a cone. -/
theorem spin_res {B : (Nat → ℝ) → (Nat → ℝ) → ℝ} (hB : IsForm B) {m : Nat}
    {A : Nat → El ℝ} {c w : El ℝ} {s : Schur.Sys ℝ}
    (hc : Soc.Spec.Contributes B m A c w s.G s.AW s.AQc s.wc s.cQc) (kc : ℝ) (y : Nat → ℝ) :
    ∀ j < m, Gap.res s m kc y j = Spin.Spec.tr B (A j) (dualPoint B w (slackOf c A m kc y)) := by
  intro j hj
  unfold Gap.res dualPoint
  rw [tr_comm hB, tr_add hB, tr_smul hB, tr_smul hB, tr_quad hB, tr_slack hB, tr_comm hB w, tr_comm hB c, hc.AW j hj,
    hc.AQc j hj, tr_quad hB]
  have : ∑ i ∈ range m, s.G (max j i) (min j i) * y i =
      ∑ i ∈ range m, y i * Spin.Spec.tr B (A i) (Spin.Spec.quad B w (A j)) := by
    refine sum_congr rfl fun i hi => ?_
    have hi := mem_range.1 hi
    rw [mul_comm, hc.G _ (by omega) _ (by omega)]
    rcases le_total i j with h | h
    · rw [max_eq_left h, min_eq_right h, ← tr_quad hB, tr_comm hB]
    · rw [max_eq_right h, min_eq_left h]
  rw [this]
  ring

/-- The residual of a constraint. -/
theorem item_res {sqrt : ℝ → ℝ} (hv : ∀ x, 0 ≤ x → SolveLoop.Spec.SqrtAt sqrt x) {it : Item ℝ} {len : Nat}
    (hk : Kind it len) (hw : ∀ r < cells it, Interior (form it) (point it r)) {s₀ s : Schur.Sys ℝ}
    (hr : s₀.rows = len) (hs : it.schur sqrt s₀ = .ok s) (c : ℝ) (y : Nat → ℝ) :
    ∀ j < len, Gap.res s len c y j = ∑ r ∈ range (cells it),
      pair it (column it r j) (dualPoint (form it) (point it r) (slackAt it len c y r)) +
        Centering.Spec.gradient y it j := by
  intro j hj
  rcases hk with ⟨o, w, rfl, hn, rfl⟩ | ⟨o, w, rfl, ho, rfl⟩ | ⟨o, w, rfl, ho, hB, rfl⟩ | ⟨n, Q, rfl, rfl, hQ⟩
  · rw [Gap.linear_res hr hs c y j hj]
    simp only [Centering.Spec.gradient, add_zero, cells, pair, column, point, slackAt, affine, form]
    refine sum_congr rfl fun r _ => ?_
    simp only [dualPoint, Spin.Spec.add, Spin.Spec.smul, Spin.Spec.quad, Spin.Spec.mul, slackOf, Linear.Spec.slack]
    ring
  · obtain ⟨⟨t, e1, -, e2⟩, -⟩ := Soc.C37_schur hv o ho w.W ⟨(hw 0 Nat.one_pos).1.le, (hw 0 Nat.one_pos).2.le⟩ s₀ hr
    have hs' : Soc.schur sqrt o w.W true s₀ = .ok s := hs
    rw [hs', Outcome.ok.injEq] at e1
    subst e1
    rw [spin_res (Soc.dot_form o.n) e2 c y j hj]
    simp only [Centering.Spec.gradient, add_zero, cells, sum_range_one, pair_eq, half, one_mul]
    rfl
  · obtain ⟨t, e1, -, e2⟩ := QuadCone.C37_schur_partial o ho hB w.W s₀ hr
    have hs' : QuadCone.schur o w.W true s₀ = .ok s := hs
    rw [hs', Outcome.ok.injEq] at e1
    subst e1
    rw [spin_res hB e2 c y j hj]
    simp only [Centering.Spec.gradient, add_zero, cells, sum_range_one, pair_eq, half, one_mul]
    rfl
  · obtain ⟨t, u', e3, -, e4, -, e5, -⟩ := Equality.C40_cost n Q s₀ (by omega)
    have g2' : Equality.costSchur n Q true s₀ = .ok s := hs
    rw [g2', Outcome.ok.injEq] at e3
    subst e3
    simp only [cells, range_zero, sum_empty, zero_add]
    unfold Centering.Spec.gradient Gap.res
    rw [(e5 j).1, (e5 j).2, mul_zero, mul_zero, sub_zero, zero_add]
    refine sum_congr rfl fun l hl => ?_
    have hl := mem_range.1 hl
    rw [e4, if_pos (by omega)]
    have : Q (max j l) (min j l) = Q j l := by
      rcases le_total l j with h | h
      · rw [max_eq_left h, min_eq_right h]
      · rw [max_eq_right h, min_eq_left h, hQ.1 l hl j hj]
    rw [this]

/-! ### Steps -/

/-- The step in a row. -/
theorem row_step (w s w' t : ℝ) (hw : 0 < w) (h : w' = w * Real.exp (t * (1 - w * s))) :
    ∃ z d, Prepared (fun _ _ => 0) ⟨w, fun _ => 0⟩ ⟨s, fun _ => 0⟩ z d |1 - w * s| (2 * (1 - w * s) ^ 2) ∧
      Taken (fun _ _ => 0) Real.exp z d t ⟨w', fun _ => 0⟩ := by
  have hs := Real.mul_self_sqrt hw.le
  refine ⟨⟨Real.sqrt w, fun _ => 0⟩, ⟨1 - w * s, fun _ => 0⟩, ⟨⟨?_, fun _ => rfl⟩, ⟨Real.sqrt_pos.2 hw, ?_⟩,
    ⟨?_, fun _ => rfl⟩, 1 - w * s, 1 - w * s, ⟨?_, ?_⟩, (max_self _).symm, by ring⟩,
    ⟨Real.exp (t * (1 - w * s)), fun _ => 0⟩, ⟨⟨1, fun _ => 0⟩, ⟨0, fun _ => 0⟩, t * (1 - w * s), 0, ⟨?_, fun _ => rfl⟩,
      ⟨?_, fun _ => rfl⟩, ⟨?_, fun _ => rfl⟩, ⟨?_, fun _ => rfl⟩, ⟨?_, fun _ => rfl⟩, ⟨?_, fun _ => rfl⟩⟩,
    ⟨?_, fun _ => rfl⟩⟩
  · simp [Spin.Spec.mul, hs]
  · have := Real.sqrt_pos.2 hw
    simp only
    positivity
  · simp only [Spin.Spec.mul, Spin.Spec.add, Spin.Spec.one, Spin.Spec.smul, Spin.Spec.quad]
    linear_combination s * hs
  · simp only; ring
  · simp only; ring
  · simp [Spin.Spec.mul]
  · simp [Spin.Spec.mul]
  · simp [Spin.Spec.mul]
  · simp [Spin.Spec.add, Spin.Spec.one]
  · simp [Spin.Spec.add, Spin.Spec.smul]
  · simp [Spin.Spec.add, Spin.Spec.smul]
  · simp only [Spin.Spec.mul, Spin.Spec.add, Spin.Spec.smul, Spin.Spec.quad, h]
    linear_combination -Real.exp (t * (1 - w * s)) * hs

/-- `PrepareStep` and `TakeStep` of a constraint. -/
theorem item_step {v : Env ℝ} (hv : ∀ x, 0 ≤ x → SolveLoop.Spec.SqrtAt v.sqrt x) (hexp : v.exp = Real.exp)
    {it x' it' : Item ℝ} {len : Nat} (hk : Kind it len) (hw : ∀ r < cells it, Interior (form it) (point it r))
    {c size : ℝ} {y : Nat → ℝ} {n : Option ℝ} {b : ℝ} (hp : it.prepareStep v c len y = .ok (x', n, b))
    (ht : x'.takeStep v size = .ok it') :
    Kin it it' ∧ (∀ r < cells it, Interior (form it) (point it' r)) ∧ ∃ (q : Nat → ℝ) (n' : ℝ), n = some n' ∧
      (∀ r < cells it, ∃ z d a, Prepared (form it) (point it r) (slackAt it len c y r) z d a (q r) ∧
        Taken (form it) Real.exp z d size (point it' r) ∧ a ≤ n') ∧
      b = ∑ r ∈ range (cells it), half it * q r ∧ (n' * n' ≤ b) := by
  have he : ∀ x, 0 < v.exp x := fun x => hexp ▸ Real.exp_pos x
  rcases hk with ⟨o, w, rfl, hn, rfl⟩ | ⟨o, w, rfl, ho, rfl⟩ | ⟨o, w, rfl, ho, hB, rfl⟩ | ⟨m, Q, rfl, rfl, hQ⟩
  · obtain ⟨w', a, b', f1, f2, f3, -, f4⟩ := Linear.C35_step v.exp o hn (opt := ⟨false, c, 1, size⟩) rfl le_rfl y w
    have f1' : Linear.prepareStep v.exp o ⟨false, c, 1, 1⟩ o.m y w = .ok (w', some (a, b')) := f1
    simp only [Item.prepareStep, f1', Outcome.bind_ok, Outcome.ok.injEq, Prod.mk.injEq] at hp
    obtain ⟨rfl, rfl, rfl⟩ := hp
    simp only [Item.takeStep, Outcome.ok.injEq] at ht
    subst ht
    have hpos : ∀ r < o.n, 0 < w.W r := fun r hr => (hw r hr).1
    have hsl : ∀ r, slackAt (.linear o w) o.m c y r = ⟨Linear.Spec.slack o c y r, fun _ => 0⟩ := by
      intro r
      simp only [slackAt, slackOf, affine, column, Linear.Spec.slack, mul_zero, zero_mul, sum_const_zero, sub_zero]
    have hd : ∀ r, Linear.Spec.dir o w.W c 1 y r = 1 - w.W r * Linear.Spec.slack o c y r := fun _ => rfl
    have f6 : ∀ r, (point (.linear o (Linear.takeStep v.exp ⟨false, c, 1, size⟩ w')) r).h =
        w.W r * Real.exp (size * (1 - w.W r * Linear.Spec.slack o c y r)) := hexp ▸ f4
    refine ⟨Or.inl ⟨_, _, _, rfl, rfl⟩, fun r hr => ?_, fun r => 2 * (1 - w.W r * Linear.Spec.slack o c y r) ^ 2, a, rfl,
      fun r hr => ?_, ?_, ?_⟩
    · have h1 : 0 < w.W r * Real.exp (size * (1 - w.W r * Linear.Spec.slack o c y r)) :=
        mul_pos (hpos r hr) (Real.exp_pos _)
      have h2 : 0 < (point (.linear o (Linear.takeStep v.exp ⟨false, c, 1, size⟩ w')) r).h := by
        rw [f6]
        exact h1
      exact ⟨h2, pow_pos h2 2⟩
    · obtain ⟨z, d, g1, g2⟩ := row_step (w.W r) (Linear.Spec.slack o c y r) _ size (hpos r hr) (f6 r)
      rw [hsl]
      exact ⟨z, d, _, g1, g2, f2.2 r hr⟩
    · rw [f3]
      refine sum_congr rfl fun r _ => ?_
      simp only [half, hd]
      ring
    · obtain ⟨r, hr, f5⟩ := f2.1
      rw [f3, f5]
      beta_reduce
      rw [abs_mul_abs_self, ← sq]
      exact single_le_sum (f := fun r => (1 - w.W r * Linear.Spec.slack o c y r) ^ 2) (fun _ _ => sq_nonneg _)
        (mem_range.2 hr)
  · obtain ⟨w', a, b', f1, f2, w'', f3, f4, f5⟩ := Soc.C36_step hv he o ho c y size w (hw 0 Nat.one_pos)
    simp only [Item.prepareStep, f1, Outcome.bind_ok, Outcome.ok.injEq, Prod.mk.injEq] at hp
    obtain ⟨rfl, rfl, rfl⟩ := hp
    simp only [Item.takeStep, f3, Outcome.bind_ok, Outcome.ok.injEq] at ht
    subst ht
    rw [hexp] at f5
    refine ⟨Or.inr (Or.inl ⟨_, _, _, rfl, rfl⟩), fun r _ => f4, fun _ => b', a, rfl, fun r _ => ⟨_, _, a, f2, f5, le_rfl⟩, ?_,
      ?_⟩
    · simp [cells, half]
    · obtain ⟨-, -, -, l₁, l₂, -, rfl, rfl⟩ := f2
      rcases max_choice |l₁| |l₂| with h | h <;> rw [h, abs_mul_abs_self] <;> nlinarith [sq_nonneg l₁, sq_nonneg l₂]
  · obtain ⟨w', a, b', f1, f2, f3, f4⟩ := QuadCone.C36_step hv he o hB c y size w (hw 0 Nat.one_pos)
    simp only [Item.prepareStep, f1, Outcome.bind_ok, Outcome.ok.injEq, Prod.mk.injEq] at hp
    obtain ⟨rfl, rfl, rfl⟩ := hp
    simp only [Item.takeStep, Outcome.ok.injEq] at ht
    subst ht
    rw [hexp] at f4
    refine ⟨Or.inr (Or.inr (Or.inl ⟨_, _, _, rfl, rfl⟩)), fun r _ => f3, fun _ => b', a, rfl,
      fun r _ => ⟨_, _, a, f2, ?_, le_rfl⟩, ?_, ?_⟩
    · rw [hexp]
      exact f4
    · simp [cells, half]
    · obtain ⟨-, -, -, l₁, l₂, -, rfl, rfl⟩ := f2
      rcases max_choice |l₁| |l₂| with h | h <;> rw [h, abs_mul_abs_self] <;> nlinarith [sq_nonneg l₁, sq_nonneg l₂]
  · simp only [Item.prepareStep, Outcome.ok.injEq, Prod.mk.injEq] at hp
    obtain ⟨rfl, rfl, rfl⟩ := hp
    simp only [Item.takeStep, Outcome.ok.injEq] at ht
    subst ht
    exact ⟨Or.inr (Or.inr (Or.inr ⟨_, _, rfl, rfl⟩)), fun r hr => absurd hr (Nat.not_lt_zero r), fun _ => 0, 0, rfl,
      fun r hr => absurd hr (Nat.not_lt_zero r), by simp [cells], by simp⟩

end Verif.ConeCentering
