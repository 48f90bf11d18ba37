import Verif.Lemmas.MatrixDecrease
import Verif.Props.MatrixCentering

/-!
# C97: centering from any start, for matrix inequalities too

What C92 says of vectors, for programs with matrix inequalities, all of the same kind of update.  The reported norm of the direction of a matrix
inequality is an estimate that may be too small (F42), so that a step may be too long and leave the cone (C57).  Here it
is assumed that no step is, as long as the sum of squares of the direction, which is exact, exceeds two; below that nothing
is assumed.
-/

namespace Verif.MatrixCentering

open Finset Verif.Dual Iteration.Spec
open Gap.Spec (Feasible objective System Separate Bounded)
open Spec (Short RealCones SameUpdate Central distance unknowns)

/-- Steps are short if the reported norm bounds the direction, as C71 and C74 assume. -/
theorem C97_short (c A : ℝ) (y : Nat → ℝ) (x : Item ℝ) (h : Bounded c A y x) :
    Short c (SolveLoop.stepSize A) y x := by
  obtain ⟨h0, -, -, h2, -⟩ := SolveLoop.C29_step_size A
  cases x with
  | lmi m o w =>
    intro μ hμ
    have h3 : |1 - μ| ≤ A := h μ hμ
    have h4 : (1 - μ) ^ 2 ≤ A * A := by
      rw [← sq_abs, sq]
      exact mul_self_le_mul_self (abs_nonneg _) h3
    exact (mul_le_mul_of_nonneg_left h4 h0.le).trans h2
  | hermitian d m hd o w =>
    intro C hC μ hμ
    have h3 : |1 - μ| ≤ A := h C hC μ hμ
    have h4 : (1 - μ) ^ 2 ≤ A * A := by
      rw [← sq_abs, sq]
      exact mul_self_le_mul_self (abs_nonneg _) h3
    exact (mul_le_mul_of_nonneg_left h4 h0.le).trans h2
  | _ => trivial

/-- Steps are short if the sum of squares of the direction is at most two. -/
theorem C97_short_sum (v : Env ℝ) (hv : ∀ x, 0 ≤ x → SolveLoop.Spec.SqrtAt v.sqrt x) (hexp : v.exp = Real.exp)
    (ht : Lmi.Spec.TriEigenvalues v.tri) (N : Nat) (es es' : List (Entry ℝ)) (hg : ∀ e ∈ es, Gap.Spec.Good e N)
    (c A B : ℝ) (y : Nat → ℝ) (hp : Dual.prepareStep v c N y es = .ok (es', A, B)) (hB : B ≤ 2) :
    ∀ e ∈ es, Short c (SolveLoop.stepSize A) (unknowns e y) e.item := by
  obtain ⟨h0, h1, -⟩ := SolveLoop.C29_step_size A
  obtain ⟨-, -, β, hβ0, rfl, hβ⟩ := program_direction hv hexp ht hg hp
  intro e he
  obtain ⟨i, hi, rfl⟩ := List.getElem_of_mem he
  obtain ⟨x', n, h2⟩ := hβ i _ (List.getElem?_eq_getElem hi)
  have hle : β i ≤ 2 :=
    (single_le_sum (f := β) (fun j hj => hβ0 j (mem_range.1 hj)) (mem_range.2 hi)).trans hB
  have hgood := hg _ he
  revert h2 hgood
  generalize es[i] = e
  obtain ⟨vars, x⟩ := e
  cases x with
  | lmi m o w =>
    intro h2 hgood μ hμ
    obtain ⟨-, -, V, d, e1, e2, e3, e5, -⟩ := lmi_direction hv ht hgood.2.2.2.1 hgood.2.2.2.2 h2
    obtain ⟨j, rfl⟩ := (Lmi.eigenvalue_iff e1 e3 μ).1 hμ
    have h3 : (1 - d j) ^ 2 ≤ β i := by
      rw [e5]
      exact single_le_sum (f := fun i => (1 - d i) ^ 2) (fun _ _ => sq_nonneg _) (mem_univ j)
    nlinarith [sq_nonneg (1 - d j)]
  | hermitian d m hd o w =>
    intro h2 hgood C hC μ hμ
    obtain ⟨-, h4, ho, hW⟩ := hgood.2.2
    obtain ⟨-, C', -, hC', -, -, -, V, l, e1, -, e3, -, hle', -⟩ := hermitian_direction hv ht h4 ho hW h2
    rw [hC] at hC'
    cases hC'
    rw [HermLmi.eigenvalue_lmat, Hyper.lmat_multiply h4] at hμ
    obtain ⟨j, rfl⟩ := (Lmi.eigenvalue_iff e1 e3 μ).1 hμ
    nlinarith [sq_nonneg (1 - l j), hle' j]
  | _ => exact fun _ _ => trivial

/-- One iteration: if no step is too long, the scaling points come closer to every central point `z`, by at least a tenth of
the sum of squares of the direction or by a fifth; they stay in their cones, and the next iteration is defined. -/
theorem C97_decrease (v : Env ℝ) (hv : ∀ x, 0 ≤ x → SolveLoop.Spec.SqrtAt v.sqrt x) (hexp : v.exp = Real.exp)
    (ht : Lmi.Spec.TriEigenvalues v.tri) (hs : ∀ n, MatrixExp.Spec.Solves (v.solve n)) (p : Iteration.Setup ℝ)
    (duals : List (List Nat)) (x x' : Iteration.State ℝ) (hr : Ready p duals x) (hsame : SameUpdate x.es) (k : ℝ)
    (st : Iteration.Step ℝ) (h : Iteration.iterate v p k x = .ok (some (st, x')))
    (hb : 2 < st.normsqrd → ∀ e ∈ x.es, Short (k * p.cs) (SolveLoop.stepSize st.norm) (unknowns e st.y) e.item)
    (z : Nat → ℝ) (hz : Central x.es p.N (fun u => k * p.bs * p.b u) (k * p.cs) z) :
    0 ≤ distance x.es (k * p.cs) z ∧ 0 ≤ distance x'.es (k * p.cs) z ∧
      distance x'.es (k * p.cs) z ≤ distance x.es (k * p.cs) z - min 2 st.normsqrd / 10 ∧
      Central x'.es p.N (fun u => k * p.bs * p.b u) (k * p.cs) z ∧ Ready p duals x' ∧
      ∃ st' x'', Iteration.iterate v p k x' = .ok (some (st', x'')) := by
  have he : ∀ x, 0 < v.exp x := fun x => hexp ▸ Real.exp_pos x
  obtain ⟨-, -, -, -, es', -, -, -, -, -, -, -, h3, -⟩ := Iteration.iterate_ok h
  have hb' : ∀ e ∈ x.es, Short (k * p.cs) (SolveLoop.stepSize st.norm) (unknowns e st.y) e.item := by
    by_cases h2 : st.normsqrd ≤ 2
    · exact C97_short_sum v hv hexp ht p.N x.es es' hr.good _ _ _ _ h3 h2
    · exact hb (not_le.1 h2)
  obtain ⟨hr', hc⟩ := iterate_decrease hv hexp ht hs hr hsame h hb' hz
  obtain ⟨-, hmin⟩ := min_le_step hv hexp ht hr.good h3
  obtain ⟨st', x'', h4, -⟩ := Iteration.iterate_total hv he hr' k
  refine ⟨distance_nonneg hr.good hr.usable hz, distance_nonneg hr'.good hr'.usable hc.central, ?_,
    hc.central, hr', st', x'', h4⟩
  have := hc.closer
  linarith

/-- From any start, with a fixed barrier parameter: if no step is too long and there is a central point `z`, then all
iterations are defined; the sums of squares of the directions, cut off at two, add up to at most ten times the distance of
the start from `z`; and after one plus 40 times the distance iterations they decrease doubly exponentially, and the points are
feasible and optimal up to the gap of the barrier parameter. -/
theorem C97_centering (v : Env ℝ) (hv : ∀ x, 0 ≤ x → SolveLoop.Spec.SqrtAt v.sqrt x) (hexp : v.exp = Real.exp)
    (ht : Lmi.Spec.TriEigenvalues v.tri) (hs : ∀ n, MatrixExp.Spec.Solves (v.solve n)) (p : Iteration.Setup ℝ)
    (hbs : 0 < p.bs) (hcs : 0 < p.cs) (duals : List (List Nat)) (x₀ : Iteration.State ℝ) (hr : Ready p duals x₀)
    (hsame : SameUpdate x₀.es) (k : ℝ) (hk : 0 < k)
    (hb : ∀ (X : Nat → Iteration.State ℝ) (ST : Nat → Iteration.Step ℝ) (n : Nat), X 0 = x₀ →
      (∀ l ≤ n, Iteration.iterate v p k (X l) = .ok (some (ST l, X (l + 1)))) → 2 < (ST n).normsqrd →
      ∀ e ∈ (X n).es, Short (k * p.cs) (SolveLoop.stepSize (ST n).norm) (unknowns e (ST n).y) e.item)
    (z : Nat → ℝ) (hz : Central x₀.es p.N (fun u => k * p.bs * p.b u) (k * p.cs) z) :
    ∃ (X : Nat → Iteration.State ℝ) (ST : Nat → Iteration.Step ℝ), X 0 = x₀ ∧
      (∀ l, Iteration.iterate v p k (X l) = .ok (some (ST l, X (l + 1)))) ∧
      (∀ n, ∑ l ∈ range n, min 2 (ST l).normsqrd ≤
        10 * (distance x₀.es (k * p.cs) z - distance (X n).es (k * p.cs) z)) ∧
      (∀ n, 0 ≤ distance (X n).es (k * p.cs) z) ∧
      ∀ m n : Nat, 40 * distance x₀.es (k * p.cs) z + 1 + m ≤ n →
        0 ≤ (ST n).normsqrd ∧ (ST n).normsqrd ≤ 1 / 2 * (1 / 2) ^ 2 ^ m ∧
        Feasible x₀.es (fun u => (ST n).y u / (k * p.cs)) ∧ ∀ z', Feasible x₀.es z' →
          objective p.N p.b (p.cs / p.bs) x₀.es z' ≤
            objective p.N p.b (p.cs / p.bs) x₀.es (fun u => (ST n).y u / (k * p.cs)) +
              (rank x₀.es - (ST n).normsqrd) / (k ^ 2 * p.bs * p.cs) := by
  classical
  have he : ∀ x, 0 < v.exp x := fun x => hexp ▸ Real.exp_pos x
  obtain ⟨st₀, -, -, -⟩ := Iteration.iterate_total hv he hr k
  -- the run
  let f : Iteration.State ℝ → Iteration.Step ℝ × Iteration.State ℝ := fun x =>
    if h : ∃ q, Iteration.iterate v p k x = .ok (some q) then h.choose else (st₀, x)
  have hf : ∀ x q, Iteration.iterate v p k x = .ok (some q) → f x = q := fun x q hq => by
    have hex : ∃ q, Iteration.iterate v p k x = .ok (some q) := ⟨q, hq⟩
    have h1 := hex.choose_spec
    have h2 : f x = hex.choose := dif_pos hex
    have h3 := hq.symm.trans h1
    rw [Outcome.ok.injEq, Option.some.injEq] at h3
    rw [h2, ← h3]
  let X : Nat → Iteration.State ℝ := fun l => Nat.rec x₀ (fun _ x => (f x).2) l
  let ST : Nat → Iteration.Step ℝ := fun l => (f (X l)).1
  have hX : ∀ l, X (l + 1) = (f (X l)).2 := fun _ => rfl
  have hinv : ∀ n, (Ready p duals (X n) ∧ SameUpdate (X n).es ∧ Gap.SameProg x₀.es (X n).es ∧
      Central (X n).es p.N (fun u => k * p.bs * p.b u) (k * p.cs) z) ∧
      ∀ l < n, Iteration.iterate v p k (X l) = .ok (some (ST l, X (l + 1))) := by
    intro n
    induction n with
    | zero => exact ⟨⟨hr, hsame, Gap.SameProg.refl _, hz⟩, fun l hl => absurd hl (Nat.not_lt_zero l)⟩
    | succ n ih =>
      obtain ⟨⟨h1, h2, h3, h4⟩, h5⟩ := ih
      obtain ⟨st, x', h6, -⟩ := Iteration.iterate_total hv he h1 k
      have h7 := hf _ _ h6
      have h8 : Iteration.iterate v p k (X n) = .ok (some (ST n, X (n + 1))) := by
        rw [h6, hX, h7]
        change _ = Outcome.ok (some ((f (X n)).1, x'))
        rw [h7]
      have h9 : ∀ l < n + 1, Iteration.iterate v p k (X l) = .ok (some (ST l, X (l + 1))) := fun l hl => by
        rcases Nat.lt_succ_iff_lt_or_eq.1 hl with hl | rfl
        · exact h5 l hl
        · exact h8
      have hshort : ∀ e ∈ (X n).es, Short (k * p.cs) (SolveLoop.stepSize (ST n).norm) (unknowns e (ST n).y) e.item := by
        obtain ⟨-, -, -, -, es', -, -, -, -, -, -, -, h10, -⟩ := Iteration.iterate_ok h8
        by_cases h11 : (ST n).normsqrd ≤ 2
        · exact C97_short_sum v hv hexp ht p.N _ es' h1.good _ _ _ _ h10 h11
        · exact hb X ST n rfl (fun l hl => h9 l (Nat.lt_succ_of_le hl)) (not_le.1 h11)
      obtain ⟨h10, h11⟩ := iterate_decrease hv hexp ht hs h1 h2 h8 hshort h4
      exact ⟨⟨h10, h11.update, h3.trans h11.same, h11.central⟩, h9⟩
  have hrun : ∀ l, Iteration.iterate v p k (X l) = .ok (some (ST l, X (l + 1))) := fun l =>
    (hinv (l + 1)).2 l (Nat.lt_succ_self l)
  have hdec : ∀ l, _ := fun l => C97_decrease v hv hexp ht hs p duals (X l) (X (l + 1)) (hinv l).1.1 (hinv l).1.2.1 k
    (ST l) (hrun l) (fun h => hb X ST l rfl (fun l _ => hrun l) h) z (hinv l).1.2.2.2
  have hlast : ∀ l, ∃ es', Dual.prepareStep v (k * p.cs) p.N (ST l).y (X l).es =
      .ok (es', (ST l).norm, (ST l).normsqrd) := fun l => by
    obtain ⟨-, -, -, -, es', -, -, -, -, -, -, -, h10, -⟩ := Iteration.iterate_ok (hrun l)
    exact ⟨es', h10⟩
  have hq0 : ∀ l, 0 ≤ (ST l).normsqrd := fun l => by
    obtain ⟨es', h1⟩ := hlast l
    exact (program_direction hv hexp ht (hinv l).1.1.good h1).1
  have hsum : ∀ n, ∑ l ∈ range n, min 2 (ST l).normsqrd ≤
      10 * (distance x₀.es (k * p.cs) z - distance (X n).es (k * p.cs) z) := by
    intro n
    induction n with
    | zero =>
      have e : X 0 = x₀ := rfl
      simp [e]
    | succ n ih =>
      rw [sum_range_succ]
      have := (hdec n).2.2.1
      linarith
  have hpos : ∀ n, 0 ≤ distance (X n).es (k * p.cs) z := fun n => (hdec n).1
  refine ⟨X, ST, rfl, hrun, hsum, hpos, fun m n hn => ?_⟩
  have hmn : m + 1 ≤ n := by
    have : ((m + 1 : Nat) : ℝ) ≤ n := by
      push_cast
      have h0 := hpos 0
      have e : X 0 = x₀ := rfl
      rw [e] at h0
      linarith
    exact_mod_cast this
  obtain ⟨l, hl, hl'⟩ : ∃ l < n - m, (ST l).normsqrd ≤ 1 / 4 := by
    by_contra hcon
    push Not at hcon
    have h3 : ∑ l ∈ range (n - m), (1 / 4 : ℝ) < ∑ l ∈ range (n - m), min 2 (ST l).normsqrd :=
      sum_lt_sum_of_nonempty ⟨0, mem_range.2 (by omega)⟩ fun l hl =>
        lt_min (by norm_num) (hcon l (mem_range.1 hl))
    rw [sum_const, card_range, nsmul_eq_mul, Nat.cast_sub (by omega)] at h3
    have h4 := hsum (n - m)
    have h5 := hpos (n - m)
    linarith
  have hbound := Centering.squared hq0 hl' (fun l hl => C95_quadratic v hv hexp ht hs p duals _ _ _ (hinv l).1.1 k _ _
    (hrun l) (hrun (l + 1)) hl) (n - l)
  rw [show l + (n - l) = n by omega] at hbound
  have h3 : (ST n).normsqrd ≤ 1 / 2 * (1 / 2) ^ 2 ^ m :=
    hbound.trans (mul_le_mul_of_nonneg_left (Centering.squared_le (by omega)) (by norm_num))
  have h4 : (1 / 2 : ℝ) ^ 2 ^ m ≤ 1 := pow_le_one₀ (by norm_num) (by norm_num)
  refine ⟨hq0 n, h3, ?_⟩
  obtain ⟨es', h1⟩ := hlast n
  obtain ⟨⟨hrn, -, hprog, -⟩, -⟩ := hinv n
  have hsep : Separate (X n).es p.b := by
    intro i e o hi ho
    have := hrn.usable e (List.mem_of_getElem? hi)
    rw [ho] at this
    exact this.elim
  obtain ⟨h5, h6⟩ := C95_gap v hv hexp ht p.N _ p.b k p.bs p.cs hk hbs hcs (X n).es hrn.good hsep
    (system hrn (hrun n) (Centering.unregularized hv he hrn (hrun n))) es' _ _ h1 (by linarith)
  refine ⟨(hprog.feasible _).1 h5, fun z' hz' => ?_⟩
  have := h6 z' ((hprog.feasible z').2 hz')
  rwa [hprog.objective, hprog.objective, hprog.rank] at this

/-! ### Examples -/

/-- Matrix inequalities are real and of order one. -/
def OrderOne : Item ℝ → Prop
  | .lmi m _ _ => m = 1
  | .hermitian _ _ _ _ _ => False
  | _ => True

/-- For matrix inequalities of order one the reported norm is exact. -/
theorem order_one_short {v : Env ℝ} {c A B : ℝ} {N : Nat} {y : Nat → ℝ} {es es' : List (Entry ℝ)}
    (h1 : ∀ e ∈ es, OrderOne e.item) (hp : Dual.prepareStep v c N y es = .ok (es', A, B)) :
    ∀ e ∈ es, Short c (SolveLoop.stepSize A) (unknowns e y) e.item := by
  obtain ⟨-, β, -, hβ⟩ := Gap.prepareLoop_inv es hp
  intro e he
  obtain ⟨i, hi, rfl⟩ := List.getElem_of_mem he
  obtain ⟨x', n, h2, h3⟩ := hβ i _ (List.getElem?_eq_getElem hi)
  have h4 := h1 _ he
  revert h2 h4
  generalize es[i] = e
  obtain ⟨vars, x⟩ := e
  cases x with
  | lmi m o w =>
    intro h2 h4
    obtain rfl : m = 1 := h4
    refine C97_short _ _ _ _ fun μ hμ => ?_
    simp only [Item.prepareStep, SolveLoop.bind_eq_ok, Outcome.ok.injEq, Prod.mk.injEq] at h2
    obtain ⟨⟨w', n', b⟩, h5, -, -, -⟩ := h2
    obtain ⟨-, rfl, ⟨i, hn⟩, -⟩ := Lmi.prepareStep_inv h5
    have hn' : n = some |1 + (w.W * -Lmi.Spec.slack o c fun j => y (vars.getD j 0)) 0 0| := by
      rw [hn]
      simp [Lanczos.approxEigenvalues, List.finRange_succ, Lmi.extremes]
    refine le_trans (le_of_eq ?_) (h3 _ hn')
    obtain ⟨u, hu, he⟩ := hμ
    have := congrFun he 0
    simp only [Matrix.mulVec, dotProduct, univ_unique, Fin.default_eq_zero, sum_singleton, Pi.smul_apply,
      smul_eq_mul] at this
    have hu0 : u 0 ≠ 0 := fun h0 => hu (funext fun j => by
      obtain rfl := Subsingleton.elim j 0
      exact h0)
    have hμ : (w.W * Lmi.Spec.slack o c fun j => y (vars.getD j 0)) 0 0 = μ := mul_right_cancel₀ hu0 this
    rw [Matrix.mul_neg, Matrix.neg_apply, hμ, sub_eq_add_neg]
  | hermitian d m hd o w => exact fun _ h4 => h4.elim
  | _ => exact fun _ _ => trivial

/-- Iterations keep the orders. -/
theorem order_one_next {v : Env ℝ} {p : Iteration.Setup ℝ} {k : ℝ} {x x' : Iteration.State ℝ} {st : Iteration.Step ℝ}
    (h : Iteration.iterate v p k x = .ok (some (st, x'))) (h1 : ∀ e ∈ x.es, OrderOne e.item) :
    ∀ e ∈ x'.es, OrderOne e.item := by
  obtain ⟨-, -, -, -, es', -, -, -, -, -, -, -, h3, h4, -⟩ := Iteration.iterate_ok h
  have hall := Gap.prepare_take x.es h3 h4
  obtain ⟨hlen, hget⟩ := List.forall₂_iff_get.1 hall
  intro e he
  obtain ⟨i, hi, rfl⟩ := List.getElem_of_mem he
  have hi' : i < x.es.length := hlen ▸ hi
  obtain ⟨-, y, n, β, h5, h6⟩ := hget i hi' hi
  simp only [List.get_eq_getElem] at h5 h6
  have h7 := h1 _ (List.getElem_mem hi')
  revert h5 h6 h7
  generalize x'.es[i].item = z'
  generalize x.es[i] = e'
  obtain ⟨vars, z⟩ := e'
  cases z with
  | lmi m' o' w' =>
    intro h5 h6 h7
    simp only [Item.prepareStep, SolveLoop.bind_eq_ok, Outcome.ok.injEq, Prod.mk.injEq] at h5
    obtain ⟨q, -, rfl, -⟩ := h5
    simp only [Item.takeStep, Outcome.ok.injEq] at h6
    subst h6
    exact h7
  | linear o' w' =>
    intro h5 h6 _
    simp only [Item.prepareStep, SolveLoop.bind_eq_ok] at h5
    obtain ⟨⟨w', q⟩, -, h⟩ := h5
    cases q with
    | none => cases h
    | some q =>
      cases h
      cases h6
      trivial
  | cost m' Q =>
    intro h5 h6 _
    cases h5
    cases h6
    trivial
  | soc o' w' =>
    intro h5 h6 _
    simp only [Item.prepareStep, SolveLoop.bind_eq_ok, Outcome.ok.injEq, Prod.mk.injEq] at h5
    obtain ⟨q, -, rfl, -⟩ := h5
    simp only [Item.takeStep, SolveLoop.bind_eq_ok, Outcome.ok.injEq] at h6
    obtain ⟨q', -, rfl⟩ := h6
    trivial
  | hermitian d m hd o w => exact fun _ _ h7 => h7.elim
  | _ =>
    intro h5 h6 _
    simp only [Item.prepareStep, SolveLoop.bind_eq_ok, Outcome.ok.injEq, Prod.mk.injEq] at h5
    obtain ⟨q, -, rfl, -⟩ := h5
    cases h6
    trivial

/-- Minimise `-(40/9) y` such that `1 - y` and `1 + y` are nonnegative, as matrix inequalities of order one. -/
noncomputable def exInterval (w w' : Lmi.Ws 1 ℝ) : Whole.Program ℝ :=
  ⟨1, fun _ => -(40 / 9), [⟨[0], .lmi 1 ⟨1, fun _ => !![1], 1⟩ w⟩, ⟨[0], .lmi 1 ⟨1, fun _ => !![-1], 1⟩ w'⟩],
   [[], []], [⟨1, fun _ _ => 0, fun _ => 0, fun _ => 0, 0, 0⟩, ⟨1, fun _ _ => 0, fun _ => 0, fun _ => 0, 0, 0⟩], false⟩

theorem exInterval_good (w w' : Lmi.Ws 1 ℝ) : Spec.ConeProgram (exInterval w w') := by
  refine ⟨?_, ⟨_, rfl, by simp⟩, rfl, by simp [exInterval], by simp [Sized, exInterval], ?_, ?_, ?_⟩
  · intro e he
    simp only [exInterval, List.mem_cons, List.not_mem_nil, or_false] at he
    rcases he with rfl | rfl
    · refine ⟨by simp, by simp [exInterval], rfl, by norm_num, fun i _ => ?_, Matrix.transpose_one⟩
      ext i j
      fin_cases i; fin_cases j; rfl
    · refine ⟨by simp, by simp [exInterval], rfl, by norm_num, fun i _ => ?_, Matrix.transpose_one⟩
      ext i j
      fin_cases i; fin_cases j; rfl
  · intro u hu
    refine ⟨_, List.mem_cons_self, ?_⟩
    have : u < 1 := hu
    simp
    omega
  · intro k hk
    obtain ⟨k', hk', hn⟩ : ∃ k, Sup.kktInit [[0], [0]] [[], []] = .ok k ∧ Sup.Spec.NoShift k :=
      ⟨_, rfl, Sup.noShift_of_bounded (n := 2) (by decide +kernel) (by decide +kernel)⟩
    have : Outcome.ok k = Outcome.ok k' := hk.symm.trans hk'
    rw [Outcome.ok.injEq] at this
    exact this ▸ hn
  · rintro z ⟨u, hu, hz⟩
    refine ⟨_, List.mem_cons_self, fun h => hz ?_⟩
    have hu0 : u = 0 := by
      have : u < 1 := hu
      omega
    subst hu0
    have := congrFun (congrFun h 0) 0
    simpa [Finset.sum_range_succ] using this

/-- The central point is `y = 4/5`, at distance `32/9` from the start. -/
theorem exInterval_central (w w' : Lmi.Ws 1 ℝ) :
    Central (Whole.startEs (exInterval w w')) 1 (fun _ => 40 / 9) 1 (fun _ => 4 / 5) ∧
      distance (Whole.startEs (exInterval w w')) 1 (fun _ => 4 / 5) = 32 / 9 := by
  have e1 : Lmi.Spec.slack (⟨1, fun _ => !![1], 1⟩ : Lmi.Con 1 ℝ) 1 (fun _ => 4 / 5) = !![1 / 5] := by
    ext i j
    fin_cases i; fin_cases j
    norm_num [Lmi.Spec.slack]
  have e2 : Lmi.Spec.slack (⟨1, fun _ => !![-1], 1⟩ : Lmi.Con 1 ℝ) 1 (fun _ => 4 / 5) = !![9 / 5] := by
    ext i j
    fin_cases i; fin_cases j
    norm_num [Lmi.Spec.slack]
  have hinv : ∀ a : ℝ, (!![a] : Matrix (Fin 1) (Fin 1) ℝ)⁻¹ = !![a⁻¹] := fun a => by
    ext i j
    fin_cases i; fin_cases j
    simp [Ring.inverse_eq_inv']
  have hpd : ∀ a : ℝ, 0 < a → (!![a] : Matrix (Fin 1) (Fin 1) ℝ).PosDef := fun a ha => by
    have : (!![a] : Matrix (Fin 1) (Fin 1) ℝ) = Matrix.diagonal fun _ => a := by
      ext i j
      fin_cases i; fin_cases j; rfl
    rw [this, Matrix.posDef_diagonal_iff]
    exact fun _ => ha
  have hes : Whole.startEs (exInterval w w') = [⟨[0], .lmi 1 ⟨1, fun _ => !![1], 1⟩ (Lmi.setIdentity w)⟩,
      ⟨[0], .lmi 1 ⟨1, fun _ => !![-1], 1⟩ (Lmi.setIdentity w')⟩] := rfl
  have hun : ∀ e : Entry ℝ, unknowns e (fun _ => 4 / 5) = fun _ => (4 / 5 : ℝ) := fun _ => rfl
  rw [hes]
  refine ⟨⟨fun e he => ?_, fun u hu => ?_⟩, ?_⟩
  · simp only [List.mem_cons, List.not_mem_nil, or_false] at he
    rcases he with rfl | rfl
    · change (Lmi.Spec.slack (⟨1, fun _ => !![1], 1⟩ : Lmi.Con 1 ℝ) 1 (fun _ => 4 / 5)).PosDef
      rw [e1]
      exact hpd _ (by norm_num)
    · change (Lmi.Spec.slack (⟨1, fun _ => !![-1], 1⟩ : Lmi.Con 1 ℝ) 1 (fun _ => 4 / 5)).PosDef
      rw [e2]
      exact hpd _ (by norm_num)
  · have hu0 : u = 0 := by omega
    subst hu0
    change ∑ i ∈ range 2, _ = _
    rw [sum_range_succ, sum_range_one]
    simp [Whole.Spec.nth, Sup.Spec.ventry, Spec.force, hun, e1, e2, hinv]
    norm_num
  · change ∑ i ∈ range 2, _ = _
    rw [sum_range_succ, sum_range_one]
    simp [Whole.Spec.nth, Spec.separation, hun, e1, e2, hinv, Lmi.setIdentity]
    norm_num

/-- The hypotheses of `C97_centering`: a start from which the first point is infeasible. -/
example (w w' : Lmi.Ws 1 ℝ) (mat : Sup.Store ℝ) : ∃ (v : Env ℝ) (p : Iteration.Setup ℝ) (x₀ : Iteration.State ℝ),
    Lmi.Spec.TriEigenvalues v.tri ∧ (∀ n, MatrixExp.Spec.Solves (v.solve n)) ∧ 0 < p.bs ∧ 0 < p.cs ∧
      Ready p [[], []] x₀ ∧ SameUpdate x₀.es ∧
      (∀ (X : Nat → Iteration.State ℝ) (ST : Nat → Iteration.Step ℝ) (n : Nat), X 0 = x₀ →
        (∀ l ≤ n, Iteration.iterate v p 1 (X l) = .ok (some (ST l, X (l + 1)))) → 2 < (ST n).normsqrd →
        ∀ e ∈ (X n).es, Short (1 * p.cs) (SolveLoop.stepSize (ST n).norm) (unknowns e (ST n).y) e.item) ∧
      Central x₀.es p.N (fun u => 1 * p.bs * p.b u) (1 * p.cs) (fun _ => 4 / 5) ∧
      distance x₀.es (1 * p.cs) (fun _ => 4 / 5) = 32 / 9 := by
  obtain ⟨tri, ht⟩ := exists_tri
  obtain ⟨-, kkt, -, hr⟩ := start_ready (l := ⟨false, 1, Sup.realLlt, fun _ _ b => b, mat⟩) (exInterval_good w w')
    Sup.realLlt_contract Sup.realLlt_complete rfl
  obtain ⟨h1, h2⟩ := exInterval_central w w'
  have hb : 1 * (exInterval w w').b 0 = 40 / 9 := by norm_num [Whole.Program.b, exInterval]
  refine ⟨{ Gap.exEnv with tri := tri }, _, _, ht, Iteration.ex_solves, one_pos, one_pos, hr, ?_, ?_, ?_, ?_⟩
  · refine Or.inl fun e he d m hd o w₁ h => ?_
    have he : e = ⟨[0], .lmi 1 ⟨1, fun _ => !![1], 1⟩ (Lmi.setIdentity w)⟩ ∨
        e = ⟨[0], .lmi 1 ⟨1, fun _ => !![-1], 1⟩ (Lmi.setIdentity w')⟩ := by
      simpa [Whole.startEs, Whole.identity, exInterval, Whole.setIdentity] using he
    rcases he with rfl | rfl <;> cases h
  · intro X ST n h0 hX _
    have hone : ∀ l ≤ n, ∀ e ∈ (X l).es, OrderOne e.item := by
      intro l
      induction l with
      | zero =>
        intro _ e he
        rw [h0] at he
        have he : e = ⟨[0], .lmi 1 ⟨1, fun _ => !![1], 1⟩ (Lmi.setIdentity w)⟩ ∨
            e = ⟨[0], .lmi 1 ⟨1, fun _ => !![-1], 1⟩ (Lmi.setIdentity w')⟩ := by
          simpa [Whole.startEs, Whole.identity, exInterval, Whole.setIdentity] using he
        rcases he with rfl | rfl <;> rfl
      | succ l ih => exact fun hl => order_one_next (hX l (by omega)) (ih (by omega))
    obtain ⟨-, -, -, -, es', -, -, -, -, -, -, -, h10, -⟩ := Iteration.iterate_ok (hX n le_rfl)
    exact order_one_short (hone n le_rfl) h10
  · rw [one_mul]
    refine ⟨h1.inside, fun u hu => ?_⟩
    have hu0 : u = 0 := by
      have : u < 1 := hu
      omega
    subst hu0
    exact (h1.stationary 0 one_pos).trans hb.symm
  · rw [one_mul]
    exact h2

/-- The hypotheses of `C97_short_sum` and `C97_decrease`, and of `C97_short`: the step from there. -/
example (w w' : Lmi.Ws 1 ℝ) (mat : Sup.Store ℝ) : ∃ (v : Env ℝ) (p : Iteration.Setup ℝ) (x x' : Iteration.State ℝ)
    (st : Iteration.Step ℝ), Ready p [[], []] x ∧ Iteration.iterate v p 1 x = .ok (some (st, x')) ∧
      ∀ e ∈ x.es, Short (1 * p.cs) (SolveLoop.stepSize st.norm) (unknowns e st.y) e.item := by
  obtain ⟨tri, ht⟩ := exists_tri
  obtain ⟨-, kkt, -, hr⟩ := start_ready (l := ⟨false, 1, Sup.realLlt, fun _ _ b => b, mat⟩) (exInterval_good w w')
    Sup.realLlt_contract Sup.realLlt_complete rfl
  obtain ⟨st, x', h, -⟩ := Iteration.iterate_total (v := { Gap.exEnv with tri := tri }) Gap.exEnv_sqrt Real.exp_pos hr 1
  refine ⟨_, _, _, _, _, hr, h, ?_⟩
  obtain ⟨-, -, -, -, es', -, -, -, -, -, -, -, h10, -⟩ := Iteration.iterate_ok h
  refine order_one_short (fun e he => ?_) h10
  have he : e = ⟨[0], .lmi 1 ⟨1, fun _ => !![1], 1⟩ (Lmi.setIdentity w)⟩ ∨
      e = ⟨[0], .lmi 1 ⟨1, fun _ => !![-1], 1⟩ (Lmi.setIdentity w')⟩ := by
    simpa [Whole.startEs, Whole.identity, exInterval, Whole.setIdentity] using he
  rcases he with rfl | rfl <;> rfl

/-- Minimise `-(8/15) y` such that `[1 y; y 1]` is positive semidefinite. -/
noncomputable def exPair (w : Lmi.Ws 2 ℝ) : Whole.Program ℝ :=
  ⟨1, fun _ => -(8 / 15), [⟨[0], .lmi 2 ⟨1, fun _ => !![0, -1; -1, 0], 1⟩ w⟩], [[]],
   [⟨1, fun _ _ => 0, fun _ => 0, fun _ => 0, 0, 0⟩], false⟩

theorem exPair_good (w : Lmi.Ws 2 ℝ) : Spec.ConeProgram (exPair w) := by
  refine ⟨?_, ⟨_, rfl, by simp⟩, rfl, by simp [exPair], by simp [Sized, exPair], ?_, ?_, ?_⟩
  · intro e he
    simp only [exPair, List.mem_cons, List.not_mem_nil, or_false] at he
    subst he
    refine ⟨by simp, by simp [exPair], rfl, by norm_num, fun i _ => ?_, Matrix.transpose_one⟩
    ext i j
    fin_cases i <;> fin_cases j <;> rfl
  · intro u hu
    refine ⟨_, List.mem_cons_self, ?_⟩
    have : u < 1 := hu
    simp
    omega
  · intro k hk
    obtain ⟨k', hk', hn⟩ : ∃ k, Sup.kktInit [[0]] [[]] = .ok k ∧ Sup.Spec.NoShift k :=
      ⟨_, rfl, Sup.noShift_of_bounded (n := 2) (by decide +kernel) (by decide +kernel)⟩
    have : Outcome.ok k = Outcome.ok k' := hk.symm.trans hk'
    rw [Outcome.ok.injEq] at this
    exact this ▸ hn
  · rintro z ⟨u, hu, hz⟩
    refine ⟨_, List.mem_cons_self, fun h => hz ?_⟩
    have hu0 : u = 0 := by
      have : u < 1 := hu
      omega
    subst hu0
    have := congrFun (congrFun h 0) 1
    simpa [Finset.sum_range_succ] using this

/-- The first direction: `y = 4/15`. -/
theorem exPair_first (v : Env ℝ) (hv : ∀ x, 0 ≤ x → SolveLoop.Spec.SqrtAt v.sqrt x) (hexp : v.exp = Real.exp)
    (ht : Lmi.Spec.TriEigenvalues v.tri) (w : Lmi.Ws 2 ℝ) (p : Iteration.Setup ℝ)
    (hN : p.N = 1) (hb : p.b 0 = 8 / 15) (hbs : p.bs = 1)
    (hcs : p.cs = 1) (x x' : Iteration.State ℝ) (hx : x.es = Whole.startEs (exPair w)) (duals : List (List Nat))
    (hr : Ready p duals x) (st : Iteration.Step ℝ) (h : Iteration.iterate v p 1 x = .ok (some (st, x'))) :
    st.normsqrd = 32 / 225 := by
  have he : ∀ x, 0 < v.exp x := fun x => hexp ▸ Real.exp_pos x
  obtain ⟨s₀, s, h0, hs, hy⟩ := system hr h (Centering.unregularized hv he hr h)
  rw [hx] at h0 hs hy
  have d0 := (exPair_good w).data _ (List.mem_cons_self)
  obtain ⟨⟨t0, a0, -, b0⟩, -⟩ := Lmi.C59_schur _ d0.2.2.2.2 1 Matrix.transpose_one (s₀ 0) (h0 0 _ rfl).ge
  have q0 : Lmi.schur _ 1 true (s₀ 0) = .ok (s 0) := hs 0 _ rfl
  rw [q0, Outcome.ok.injEq] at a0
  subst a0
  have G0 := b0.G 0 (by norm_num) 0 le_rfl
  have W0 := b0.AW 0 (by norm_num)
  have C0 := b0.AQc 0 (by norm_num)
  simp [Matrix.trace, Fin.sum_univ_two] at G0 W0 C0
  have hy0 : st.y 0 = 4 / 15 := by
    have := hy 0 (by rw [hN]; norm_num)
    rw [hN] at this
    simp [Sup.Spec.total, Sup.Spec.entry, Sup.Spec.ventry, Whole.startEs, Whole.identity, exPair, List.range_succ, hb, hbs,
      hcs] at this
    rw [G0, W0, C0] at this
    linarith
  obtain ⟨-, -, -, -, es', -, -, -, -, -, -, -, h3, -⟩ := Iteration.iterate_ok h
  obtain ⟨-, -, β, -, hB, hβ⟩ := program_direction hv hexp ht hr.good h3
  rw [hx] at hβ hB
  obtain ⟨x₀, n₀, p0⟩ := hβ 0 _ rfl
  obtain ⟨-, -, -, -, -, -, -, -, e0⟩ := lmi_direction hv ht d0.2.2.2.2 Matrix.PosDef.one p0
  have hk : (1 : ℝ) * p.cs = 1 := by rw [hcs, one_mul]
  rw [hk] at e0
  simp [Lmi.Spec.slack, Matrix.trace, Matrix.mul_apply, Fin.sum_univ_two, hy0, Lmi.setIdentity] at e0
  have hB' : st.normsqrd = β 0 := by
    rw [hB]
    exact Finset.sum_range_one _
  rw [hB']
  linarith

/-- The central point is `y = 1/4`, at distance `2/15` from the start. -/
theorem exPair_central (w : Lmi.Ws 2 ℝ) :
    Central (Whole.startEs (exPair w)) 1 (fun _ => 8 / 15) 1 (fun _ => 1 / 4) ∧
      distance (Whole.startEs (exPair w)) 1 (fun _ => 1 / 4) = 2 / 15 := by
  have e1 : Lmi.Spec.slack (⟨1, fun _ => !![0, -1; -1, 0], 1⟩ : Lmi.Con 2 ℝ) 1 (fun _ => 1 / 4) = !![1, 1 / 4; 1 / 4, 1] := by
    ext i j
    fin_cases i <;> fin_cases j <;> norm_num [Lmi.Spec.slack]
  have hinv : (!![1, 1 / 4; 1 / 4, 1] : Matrix (Fin 2) (Fin 2) ℝ)⁻¹ = !![16 / 15, -4 / 15; -4 / 15, 16 / 15] := by
    refine Matrix.inv_eq_right_inv ?_
    ext i j
    fin_cases i <;> fin_cases j <;> norm_num [Matrix.mul_apply, Fin.sum_univ_two]
  have hpd : (!![1, 1 / 4; 1 / 4, 1] : Matrix (Fin 2) (Fin 2) ℝ).PosDef := by
    refine Matrix.PosDef.of_dotProduct_mulVec_pos ?_ fun u hu => ?_
    · ext i j
      fin_cases i <;> fin_cases j <;> simp
    · have h2 : u 0 ≠ 0 ∨ u 1 ≠ 0 := by
        by_contra hcon
        push Not at hcon
        exact hu (funext fun i => by fin_cases i <;> simp [hcon.1, hcon.2])
      simp only [dotProduct, Matrix.mulVec, Fin.sum_univ_two, star_trivial, Matrix.of_apply, Matrix.cons_val', Matrix.cons_val_zero,
        Matrix.cons_val_one, Matrix.cons_val_fin_one]
      rcases h2 with h | h <;> nlinarith [mul_self_pos.2 h, sq_nonneg (u 0 + u 1), sq_nonneg (u 0), sq_nonneg (u 1),
        sq_nonneg (u 0 - u 1)]
  have hes : Whole.startEs (exPair w) = [⟨[0], .lmi 2 ⟨1, fun _ => !![0, -1; -1, 0], 1⟩ (Lmi.setIdentity w)⟩] := rfl
  have hun : ∀ e : Entry ℝ, unknowns e (fun _ => 1 / 4) = fun _ => (1 / 4 : ℝ) := fun _ => rfl
  rw [hes]
  refine ⟨⟨fun e he => ?_, fun u hu => ?_⟩, ?_⟩
  · simp only [List.mem_cons, List.not_mem_nil, or_false] at he
    subst he
    change (Lmi.Spec.slack (⟨1, fun _ => !![0, -1; -1, 0], 1⟩ : Lmi.Con 2 ℝ) 1 (fun _ => 1 / 4)).PosDef
    rw [e1]
    exact hpd
  · have hu0 : u = 0 := by omega
    subst hu0
    change ∑ i ∈ range 1, _ = _
    rw [sum_range_one]
    simp only [Whole.Spec.nth, Sup.Spec.ventry, Spec.force, hun, List.getD_cons_zero, List.mem_singleton, if_true, e1, hinv]
    norm_num [Matrix.trace, Matrix.mul_apply, Fin.sum_univ_two]
  · change ∑ i ∈ range 1, _ = _
    rw [sum_range_one]
    simp only [Whole.Spec.nth, Spec.separation, hun, e1, hinv, Lmi.setIdentity, List.getD_cons_zero, inv_one, one_mul]
    norm_num [Matrix.trace, Fin.sum_univ_two]

/-- The hypotheses of `C97_centering`: a matrix inequality of order two. -/
example (w : Lmi.Ws 2 ℝ) (mat : Sup.Store ℝ) : ∃ (v : Env ℝ) (p : Iteration.Setup ℝ) (x₀ : Iteration.State ℝ),
    Lmi.Spec.TriEigenvalues v.tri ∧ (∀ n, MatrixExp.Spec.Solves (v.solve n)) ∧ 0 < p.bs ∧ 0 < p.cs ∧
      Ready p [[]] x₀ ∧ SameUpdate x₀.es ∧
      (∀ (X : Nat → Iteration.State ℝ) (ST : Nat → Iteration.Step ℝ) (n : Nat), X 0 = x₀ →
        (∀ l ≤ n, Iteration.iterate v p 1 (X l) = .ok (some (ST l, X (l + 1)))) → 2 < (ST n).normsqrd →
        ∀ e ∈ (X n).es, Short (1 * p.cs) (SolveLoop.stepSize (ST n).norm) (unknowns e (ST n).y) e.item) ∧
      Central x₀.es p.N (fun u => 1 * p.bs * p.b u) (1 * p.cs) (fun _ => 1 / 4) ∧
      distance x₀.es (1 * p.cs) (fun _ => 1 / 4) = 2 / 15 := by
  obtain ⟨tri, ht⟩ := exists_tri
  obtain ⟨-, kkt, -, hr⟩ := start_ready (l := ⟨false, 1, Sup.realLlt, fun _ _ b => b, mat⟩) (exPair_good w)
    Sup.realLlt_contract Sup.realLlt_complete rfl
  obtain ⟨h1, h2⟩ := exPair_central w
  have hb : (exPair w).b 0 = 8 / 15 := by norm_num [Whole.Program.b, exPair]
  obtain ⟨st, x', h, -⟩ := Iteration.iterate_total (v := { Gap.exEnv with tri := tri }) Gap.exEnv_sqrt Real.exp_pos hr 1
  have hq := exPair_first { Gap.exEnv with tri := tri } Gap.exEnv_sqrt rfl ht w _ rfl hb rfl rfl _ _ rfl _ hr _ h
  obtain ⟨X', ST', h3, -, h4⟩ := C95_local { Gap.exEnv with tri := tri } Gap.exEnv_sqrt rfl ht Iteration.ex_solves _ one_pos
    one_pos _ _ _ hr 1 one_pos _ h (by rw [hq]; norm_num)
  refine ⟨{ Gap.exEnv with tri := tri }, _, _, ht, Iteration.ex_solves, one_pos, one_pos, hr, ?_, ?_, ?_, ?_⟩
  · refine Or.inl fun e he d m hd o w₁ h => ?_
    have he : e = ⟨[0], .lmi 2 ⟨1, fun _ => !![0, -1; -1, 0], 1⟩ (Lmi.setIdentity w)⟩ := by
      simpa [Whole.startEs, Whole.identity, exPair, Whole.setIdentity] using he
    subst he
    cases h
  · intro X ST n h0 hX hlarge
    have hsame : ∀ l ≤ n, X l = X' l := by
      intro l
      induction l with
      | zero => exact fun _ => h0.trans h3.symm
      | succ l ih =>
        intro hl
        have h5 := hX l (by omega)
        rw [ih (by omega), (h4 l).1, Outcome.ok.injEq, Option.some.injEq, Prod.mk.injEq] at h5
        exact h5.2.symm
    have h5 := hX n le_rfl
    rw [hsame n le_rfl, (h4 n).1, Outcome.ok.injEq, Option.some.injEq, Prod.mk.injEq] at h5
    have h6 := (h4 n).2.2.2.1
    have h7 : (1 / 2 : ℝ) ^ 2 ^ n ≤ 1 := pow_le_one₀ (by norm_num) (by norm_num)
    rw [h5.1] at h6
    linarith
  · rw [one_mul]
    refine ⟨h1.inside, fun u hu => ?_⟩
    have hu0 : u = 0 := by
      have : u < 1 := hu
      omega
    subst hu0
    refine (h1.stationary 0 one_pos).trans ?_
    rw [one_mul]
    exact hb.symm
  · rw [one_mul]
    exact h2

/-- Minimise `-(8/15) y` such that `[1 iy; -iy 1]` is positive semidefinite. -/
noncomputable def exComplex (w : HermLmi.Ws 2 2 ℝ) : Whole.Program ℝ :=
  ⟨1, fun _ => -(8 / 15), [⟨[0], .hermitian 2 2 ⟨by decide⟩
    ⟨[fun c => if c = 0 then 0 else !![0, -1; 1, 0]], some (Hyper.identity 2)⟩ w⟩], [[]],
   [⟨1, fun _ _ => 0, fun _ => 0, fun _ => 0, 0, 0⟩], false⟩

theorem exComplex_good (w : HermLmi.Ws 2 2 ℝ) : Spec.ConeProgram (exComplex w) := by
  refine ⟨?_, ⟨_, rfl, by simp⟩, rfl, by simp [exComplex], by simp [Sized, exComplex], ?_, ?_, ?_⟩
  · intro e he
    simp only [exComplex, List.mem_cons, List.not_mem_nil, or_false] at he
    subst he
    refine ⟨by simp, by simp [exComplex], rfl, Or.inr (Or.inl rfl), ⟨fun A hA => ?_, fun C hC => ?_⟩, _, rfl⟩
    · simp only [List.mem_cons, List.not_mem_nil, or_false] at hA
      subst hA
      intro i r c
      fin_cases i <;> fin_cases r <;> fin_cases c <;> simp
    · simp only [Option.mem_def, Option.some.injEq] at hC
      subst hC
      intro i r c
      fin_cases i <;> fin_cases r <;> fin_cases c <;> simp [Hyper.identity]
  · intro u hu
    refine ⟨_, List.mem_cons_self, ?_⟩
    have : u < 1 := hu
    simp
    omega
  · intro k hk
    obtain ⟨k', hk', hn⟩ : ∃ k, Sup.kktInit [[0]] [[]] = .ok k ∧ Sup.Spec.NoShift k :=
      ⟨_, rfl, Sup.noShift_of_bounded (n := 2) (by decide +kernel) (by decide +kernel)⟩
    have : Outcome.ok k = Outcome.ok k' := hk.symm.trans hk'
    rw [Outcome.ok.injEq] at this
    exact this ▸ hn
  · rintro z ⟨u, hu, hz⟩
    refine ⟨_, List.mem_cons_self, fun h => hz ?_⟩
    have hu0 : u = 0 := by
      have : u < 1 := hu
      omega
    subst hu0
    have := congrFun (congrFun (h 1) 0) 1
    simpa [Finset.sum_range_succ] using this

/-- The first direction: `y = 4/15`. -/
theorem exComplex_first (v : Env ℝ) (hv : ∀ x, 0 ≤ x → SolveLoop.Spec.SqrtAt v.sqrt x) (hexp : v.exp = Real.exp)
    (ht : Lmi.Spec.TriEigenvalues v.tri) (w : HermLmi.Ws 2 2 ℝ) (p : Iteration.Setup ℝ)
    (hN : p.N = 1) (hb : p.b 0 = 8 / 15) (hbs : p.bs = 1)
    (hcs : p.cs = 1) (x x' : Iteration.State ℝ) (hx : x.es = Whole.startEs (exComplex w)) (duals : List (List Nat))
    (hr : Ready p duals x) (st : Iteration.Step ℝ) (h : Iteration.iterate v p 1 x = .ok (some (st, x'))) :
    st.normsqrd = 32 / 225 := by
  have he : ∀ x, 0 < v.exp x := fun x => hexp ▸ Real.exp_pos x
  obtain ⟨s₀, s, h0, hs, hy⟩ := system hr h (Centering.unregularized hv he hr h)
  rw [hx] at h0 hs hy
  have d1 := (exComplex_good w).data _ List.mem_cons_self
  have hD := Hyper.dim_of_assoc (d := 2) (Or.inr (Or.inl rfl))
  have hid : HermLmi.Spec.PosDef (Hyper.identity 2 : Hyper.Hyp 2 (Fin 2) (Fin 2) ℝ) :=
    HermLmi.C60_identity hD w
  obtain ⟨⟨t1, a1, -, b1⟩, -⟩ := HermLmi.C62_schur hD _ d1.2.2.2.2.1
    (Hyper.identity 2) hid.1 _ rfl (s₀ 0) (h0 0 _ rfl).ge
  have q1 : HermLmi.schur _ (Hyper.identity 2) true (s₀ 0) = .ok (s 0) := hs 0 _ rfl
  rw [q1, Outcome.ok.injEq] at a1
  subst a1
  have G1 := b1.G 0 (by norm_num) 0 le_rfl
  have W1 := b1.AW 0 (by norm_num)
  have C1 := b1.AQc 0 (by norm_num)
  have hq : ∀ A : Hyper.Hyp 2 (Fin 2) (Fin 2) ℝ, Hyper.quadRep (Hyper.identity 2) A = A := fun A => by
    rw [Hyper.quadRep_assoc (Or.inr (Or.inl rfl)), Hyper.one_multiply hD, Hyper.multiply_one hD]
  rw [hq] at G1 C1
  simp [HermLmi.Spec.inner, Fin.sum_univ_two, Hyper.identity] at G1 W1 C1
  have hy0 : st.y 0 = 4 / 15 := by
    have := hy 0 (by rw [hN]; norm_num)
    rw [hN] at this
    simp [Sup.Spec.total, Sup.Spec.entry, Sup.Spec.ventry, Whole.startEs, Whole.identity, exComplex, List.range_succ, hb, hbs,
      hcs] at this
    rw [G1, W1, C1] at this
    linarith
  obtain ⟨-, -, -, -, es', -, -, -, -, -, -, -, h3, -⟩ := Iteration.iterate_ok h
  obtain ⟨-, -, β, -, hB, hβ⟩ := program_direction hv hexp ht hr.good h3
  rw [hx] at hβ hB
  obtain ⟨x₁, n₁, p1⟩ := hβ 0 _ rfl
  have hk : (1 : ℝ) * p.cs = 1 := by rw [hcs, one_mul]
  rw [hk] at p1
  obtain ⟨-, C, -, hC, -, -, -, -, -, -, -, -, -, -, e1⟩ := hermitian_direction hv ht (Or.inr (Or.inl rfl)) d1.2.2.2.2.1 hid p1
  have hC' : C = Hyper.identity 2 := by
    have : some (Hyper.identity 2 : Hyper.Hyp 2 (Fin 2) (Fin 2) ℝ) = some C := hC
    exact (Option.some.inj this).symm
  subst hC'
  have hWid : (HermLmi.setIdentity w).W = Hyper.identity 2 := rfl
  rw [hWid, Hyper.lmat_identity hD, one_mul, ← Hyper.lmat_multiply (Or.inr (Or.inl rfl)), Hyper.trace_lmat hD,
    Hyper.trace_lmat hD, Hyper.retr_multiply hD] at e1
  simp [HermLmi.Spec.slack, Matrix.trace, Matrix.mul_apply, Fin.sum_univ_two, hy0, Hyper.retr, Hyper.identity, Hyper.kap] at e1
  have hB' : st.normsqrd = β 0 := by
    rw [hB]
    exact Finset.sum_range_one _
  rw [hB']
  linarith

/-- Products of complex matrices. -/
theorem multiply_complex {ι κ l : Type} [Fintype κ] (X : Hyper.Hyp 2 ι κ ℝ) (Y : Hyper.Hyp 2 κ l ℝ) :
    Hyper.multiply X Y 0 = X 0 * Y 0 - X 1 * Y 1 ∧ Hyper.multiply X Y 1 = X 0 * Y 1 + X 1 * Y 0 := by
  constructor <;> simp [Hyper.multiply, Fin.sum_univ_two, Hyper.index, Hyper.sign, Hyper.indexTable, Hyper.signTable, sub_eq_add_neg]

/-- The inverse is determined by its product. -/
theorem hyperInverse_eq {d m : Nat} (h4 : d = 1 ∨ d = 2 ∨ d = 4) {S X : HermLmi.HMat d m ℝ}
    (h : Hyper.multiply S X = Hyper.identity d) : Spec.hyperInverse S = X := by
  refine Hyper.lmat_injective (Hyper.dim_of_assoc h4) ?_
  rw [lmat_inverse h4]
  refine Matrix.inv_eq_right_inv ?_
  rw [← Hyper.lmat_multiply h4, h, Hyper.lmat_identity (Hyper.dim_of_assoc h4)]

/-- The central point is `y = 1/4`, at distance `2/15` from the start. -/
theorem exComplex_central (w : HermLmi.Ws 2 2 ℝ) :
    Central (Whole.startEs (exComplex w)) 1 (fun _ => 8 / 15) 1 (fun _ => 1 / 4) ∧
      distance (Whole.startEs (exComplex w)) 1 (fun _ => 1 / 4) = 2 / 15 := by
  have h4 : 2 = 1 ∨ 2 = 2 ∨ 2 = 4 := Or.inr (Or.inl rfl)
  have hD := Hyper.dim_of_assoc h4
  set o : HermLmi.Con 2 2 ℝ := ⟨[fun c => if c = 0 then 0 else !![0, -1; 1, 0]], some (Hyper.identity 2)⟩ with ho
  have e1 : Spec.hyperSlack o 1 (fun _ => 1 / 4) = fun c => if c = 0 then 1 else !![0, 1 / 4; -1 / 4, 0] := by
    funext c
    ext i j
    fin_cases c <;> fin_cases i <;> fin_cases j <;>
      norm_num [Spec.hyperSlack, HermLmi.Spec.slack, ho, Hyper.identity]
  have hinv : Spec.hyperInverse (Spec.hyperSlack o 1 (fun _ => 1 / 4)) =
      fun c => if c = 0 then (16 / 15 : ℝ) • 1 else !![0, -4 / 15; 4 / 15, 0] := by
    refine hyperInverse_eq h4 ?_
    rw [e1]
    have e2 := multiply_complex (fun c => if c = 0 then 1 else !![0, 1 / 4; -1 / 4, 0])
      (fun c => if c = 0 then (16 / 15 : ℝ) • (1 : Matrix (Fin 2) (Fin 2) ℝ) else !![0, -4 / 15; 4 / 15, 0])
    funext c
    fin_cases c
    · refine e2.1.trans ?_
      ext i j
      fin_cases i <;> fin_cases j <;> norm_num [Hyper.identity, Fin.sum_univ_two, Matrix.mul_apply]
    · refine e2.2.trans ?_
      ext i j
      fin_cases i <;> fin_cases j <;> norm_num [Hyper.identity, Fin.sum_univ_two, Matrix.mul_apply]
  have hone : Spec.hyperInverse (Hyper.identity 2 : HermLmi.HMat 2 2 ℝ) = Hyper.identity 2 :=
    hyperInverse_eq h4 (Hyper.one_multiply hD _)
  have hpd : HermLmi.Spec.PosDef (Spec.hyperSlack o 1 (fun _ => 1 / 4)) := by
    rw [e1]
    refine ⟨fun i r s => ?_, fun u hu => ?_⟩
    · fin_cases i <;> fin_cases r <;> fin_cases s <;> norm_num
    · have e2 := multiply_complex (fun c => if c = 0 then 1 else !![0, 1 / 4; -1 / 4, 0]) u
      unfold HermLmi.Spec.form
      rw [Fin.sum_univ_two, e2.1, e2.2]
      have h2 : u 0 0 () ≠ 0 ∨ u 0 1 () ≠ 0 ∨ u 1 0 () ≠ 0 ∨ u 1 1 () ≠ 0 := by
        by_contra hcon
        push Not at hcon
        obtain ⟨c1, c2, c3, c4⟩ := hcon
        refine hu (funext fun c => ?_)
        ext i j
        fin_cases c <;> fin_cases i
        exacts [c1, c2, c3, c4]
      simp only [Fin.sum_univ_two, Matrix.sub_apply, Matrix.add_apply, Matrix.mul_apply]
      norm_num
      rcases h2 with h | h | h | h <;> nlinarith [mul_self_pos.2 h, sq_nonneg (u 0 0 () - u 1 1 ()), sq_nonneg (u 0 0 () + u 1 1 ()),
        sq_nonneg (u 0 1 () - u 1 0 ()), sq_nonneg (u 0 1 () + u 1 0 ()), sq_nonneg (u 0 0 ()), sq_nonneg (u 0 1 ()),
        sq_nonneg (u 1 0 ()), sq_nonneg (u 1 1 ())]
  have hes : Whole.startEs (exComplex w) = [⟨[0], .hermitian 2 2 ⟨by decide⟩ o (HermLmi.setIdentity w)⟩] := rfl
  have hun : ∀ e : Entry ℝ, unknowns e (fun _ => 1 / 4) = fun _ => (1 / 4 : ℝ) := fun _ => rfl
  rw [hes]
  refine ⟨⟨fun e he => ?_, fun u hu => ?_⟩, ?_⟩
  · simp only [List.mem_cons, List.not_mem_nil, or_false] at he
    subst he
    exact hpd
  · have hu0 : u = 0 := by omega
    subst hu0
    change ∑ i ∈ range 1, _ = _
    rw [sum_range_one]
    simp only [Whole.Spec.nth, Sup.Spec.ventry, Spec.force, hun, List.getD_cons_zero, List.mem_singleton, if_true, hinv]
    norm_num [HermLmi.Spec.inner, Fin.sum_univ_two, ho]
  · change ∑ i ∈ range 1, _ = _
    rw [sum_range_one]
    simp only [Whole.Spec.nth, Spec.separation, hun, HermLmi.setIdentity, hone, hinv, List.getD_cons_zero]
    rw [e1]
    norm_num [HermLmi.Spec.inner, Fin.sum_univ_two, Hyper.identity]

/-- The hypotheses of `C97_centering`: a complex matrix inequality. -/
example (w : HermLmi.Ws 2 2 ℝ) (mat : Sup.Store ℝ) : ∃ (v : Env ℝ) (p : Iteration.Setup ℝ) (x₀ : Iteration.State ℝ),
    Lmi.Spec.TriEigenvalues v.tri ∧ (∀ n, MatrixExp.Spec.Solves (v.solve n)) ∧ 0 < p.bs ∧ 0 < p.cs ∧
      Ready p [[]] x₀ ∧ SameUpdate x₀.es ∧
      (∀ (X : Nat → Iteration.State ℝ) (ST : Nat → Iteration.Step ℝ) (n : Nat), X 0 = x₀ →
        (∀ l ≤ n, Iteration.iterate v p 1 (X l) = .ok (some (ST l, X (l + 1)))) → 2 < (ST n).normsqrd →
        ∀ e ∈ (X n).es, Short (1 * p.cs) (SolveLoop.stepSize (ST n).norm) (unknowns e (ST n).y) e.item) ∧
      Central x₀.es p.N (fun u => 1 * p.bs * p.b u) (1 * p.cs) (fun _ => 1 / 4) ∧
      distance x₀.es (1 * p.cs) (fun _ => 1 / 4) = 2 / 15 := by
  obtain ⟨tri, ht⟩ := exists_tri
  obtain ⟨-, kkt, -, hr⟩ := start_ready (l := ⟨false, 1, Sup.realLlt, fun _ _ b => b, mat⟩) (exComplex_good w)
    Sup.realLlt_contract Sup.realLlt_complete rfl
  obtain ⟨h1, h2⟩ := exComplex_central w
  have hb : (exComplex w).b 0 = 8 / 15 := by norm_num [Whole.Program.b, exComplex]
  obtain ⟨st, x', h, -⟩ := Iteration.iterate_total (v := { Gap.exEnv with tri := tri }) Gap.exEnv_sqrt Real.exp_pos hr 1
  have hq := exComplex_first { Gap.exEnv with tri := tri } Gap.exEnv_sqrt rfl ht w _ rfl hb rfl rfl _ _ rfl _ hr _ h
  obtain ⟨X', ST', h3, -, h4⟩ := C95_local { Gap.exEnv with tri := tri } Gap.exEnv_sqrt rfl ht Iteration.ex_solves _ one_pos
    one_pos _ _ _ hr 1 one_pos _ h (by rw [hq]; norm_num)
  refine ⟨{ Gap.exEnv with tri := tri }, _, _, ht, Iteration.ex_solves, one_pos, one_pos, hr, Or.inr fun e he => Or.inl ?_,
    fun X ST n h0 hX hlarge => ?_, ?_, ?_⟩
  · have he : e ∈ [⟨[0], .hermitian 2 2 _ _ (HermLmi.setIdentity w)⟩] := he
    rw [List.mem_singleton] at he
    subst he
    exact ⟨_, _, _, _, _, rfl⟩
  · have hsame : ∀ l ≤ n, X l = X' l := by
      intro l
      induction l with
      | zero => exact fun _ => h0.trans h3.symm
      | succ l ih =>
        intro hl
        have h5 := hX l (by omega)
        rw [ih (by omega), (h4 l).1, Outcome.ok.injEq, Option.some.injEq, Prod.mk.injEq] at h5
        exact h5.2.symm
    have h5 := hX n le_rfl
    rw [hsame n le_rfl, (h4 n).1, Outcome.ok.injEq, Option.some.injEq, Prod.mk.injEq] at h5
    have h6 := (h4 n).2.2.2.1
    have h7 : (1 / 2 : ℝ) ^ 2 ^ n ≤ 1 := pow_le_one₀ (by norm_num) (by norm_num)
    rw [h5.1] at h6
    linarith
  · rw [one_mul]
    refine ⟨h1.inside, fun u hu => ?_⟩
    have hu0 : u = 0 := by
      have : u < 1 := hu
      omega
    subst hu0
    refine (h1.stationary 0 one_pos).trans ?_
    rw [one_mul]
    exact hb.symm
  · rw [one_mul]
    exact h2

end Verif.MatrixCentering
