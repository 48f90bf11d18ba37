import Verif.Lemmas.DivergenceList
import Verif.Lemmas.DivergencePoint
import Verif.Lemmas.SearchPolyhedral

/-!
# The divergence of a program of linear inequalities (C91)
-/

namespace Verif.Whole

open Finset Centering Centering.Spec Whole.Spec Iteration.Spec
open Verif.Dual

/-- The weighted slacks of an entry. -/
noncomputable def entryLam (cs : ℝ) (y : Nat → ℝ) (e : Entry ℝ) : List ℝ :=
  (List.range (con e.item).n).map fun r => weight e.item r *
    (cs * (con e.item).c r - ∑ j ∈ range (con e.item).m, (con e.item).A r j * y (e.vars.getD j 0))

/-- The weighted slacks of a program. -/
noncomputable def lamList (cs : ℝ) (y : Nat → ℝ) (es : List (Entry ℝ)) : List ℝ := (es.map (entryLam cs y)).flatten

theorem entries_nth (es : List (Entry ℝ)) : es = (List.range es.length).map (nth es) := by
  refine List.ext_getElem (by simp) fun i h1 h2 => ?_
  simp [nth, h1]

theorem sum_list (n : Nat) (f : Nat → ℝ) : ((List.range n).map f).sum = ∑ i ∈ range n, f i := by
  induction n with
  | zero => simp
  | succ n ih => rw [List.range_succ, List.map_append, List.sum_append, sum_range_succ, ih]; simp

theorem lamList_sum (cs : ℝ) (y : Nat → ℝ) (es : List (Entry ℝ)) (f : ℝ → ℝ) :
    ((lamList cs y es).map f).sum = rows es fun i r => f (lam es cs y i r) := by
  unfold lamList rows
  rw [List.map_flatten, List.sum_flatten, List.map_map, List.map_map]
  conv_lhs => rw [entries_nth es, List.map_map, sum_list]
  refine sum_congr rfl fun i _ => ?_
  simp only [Function.comp_apply, entryLam, List.map_map, sum_list]
  rfl

theorem lamList_mem {cs : ℝ} {y : Nat → ℝ} {es : List (Entry ℝ)} {i r : Nat} (hi : i < es.length)
    (hr : r < (con (nth es i).item).n) : lam es cs y i r ∈ lamList cs y es := by
  unfold lamList
  refine List.mem_flatten.2 ⟨entryLam cs y (nth es i), List.mem_map_of_mem (nth_mem hi), ?_⟩
  exact List.mem_map.2 ⟨r, List.mem_range.2 hr, rfl⟩

theorem mem_lamList {cs : ℝ} {y : Nat → ℝ} {es : List (Entry ℝ)} {x : ℝ} (h : x ∈ lamList cs y es) :
    ∃ i < es.length, ∃ r < (con (nth es i).item).n, x = lam es cs y i r := by
  unfold lamList at h
  obtain ⟨l, hl, hx⟩ := List.mem_flatten.1 h
  obtain ⟨e, he, rfl⟩ := List.mem_map.1 hl
  obtain ⟨i, hi⟩ := List.getElem?_of_mem he
  have := nth_of hi
  subst this
  obtain ⟨r, hr, rfl⟩ := List.mem_map.1 hx
  exact ⟨i, (List.getElem?_eq_some_iff.1 hi).1, r, List.mem_range.1 hr, rfl⟩

theorem lamList_length (cs : ℝ) (y : Nat → ℝ) (es : List (Entry ℝ)) : ((lamList cs y es).length : ℝ) = count es := by
  have := lamList_sum cs y es fun _ => 1
  rw [List.map_const', List.sum_replicate, nsmul_eq_mul, mul_one] at this
  rw [this]
  simp [rows, count]

/-- The loop over the constraints. -/
theorem slackEntries_linear (v : Env ℝ) (cs : ℝ) {N : Nat} (y : Nat → ℝ) : ∀ (es : List (Entry ℝ)),
    (∀ e ∈ es, (∀ v ∈ e.vars, v < N) ∧ ∃ o w, e.item = .linear o w ∧ 0 < o.n ∧ o.m = e.vars.length) →
    ∃ ls : List (List ℝ × Divergence.Slack ℝ), ls.map (·.1) = es.map (entryLam cs y) ∧
      (∀ t ∈ ls, Divergence.Spec.DataOf t.1 t.2) ∧ ∀ p,
        slackEntries v cs N y es p = .ok ((ls.map (·.2)).foldl Divergence.combine p) := by
  intro es
  induction es with
  | nil => exact fun _ => ⟨[], rfl, by simp, fun p => rfl⟩
  | cons e es ih =>
    intro h
    obtain ⟨h1, o, w, h2, h3, h4⟩ := h e List.mem_cons_self
    obtain ⟨ls, g1, g2, g3⟩ := ih fun e' he' => h e' (List.mem_cons_of_mem _ he')
    obtain ⟨q, k1, -, k3⟩ := Linear.C35_slack o h3 w h4.le (fun j => y (e.vars.getD j 0)) cs ⟨0, 0, 0, 0, 0⟩
    refine ⟨(entryLam cs y e, { q with rank := o.n }) :: ls, by simp [g1], ?_, fun p => ?_⟩
    · intro t ht
      rcases List.mem_cons.1 ht with rfl | ht
      · have e1 : entryLam cs y e = (List.range o.n).map fun i => w.W i * Linear.Spec.slack o cs (fun j => y (e.vars.getD j 0)) i := by
          unfold entryLam
          rw [h2]
          rfl
        rw [e1]
        exact k3
      · exact g2 t ht
    · have e2 : itemSlack v cs e.vars.length (fun j => y (e.vars.getD j 0)) e.item = .ok (q.frob, q.trace, some (q.lmin, q.lmax)) := by
        rw [h2]
        simp only [itemSlack, k1, Outcome.bind_ok]
      simp only [slackEntries, gather_ok' h1, e2, Outcome.bind_ok, g3, List.map_cons, List.foldl_cons]
      rfl

/-- The loop is defined, also with quadratic costs. -/
theorem slackEntries_defined (v : Env ℝ) (cs : ℝ) {N : Nat} (y : Nat → ℝ) : ∀ (es : List (Entry ℝ)),
    (∀ e ∈ es, (∀ v ∈ e.vars, v < N) ∧ ((∃ o w, e.item = .linear o w ∧ 0 < o.n ∧ o.m = e.vars.length) ∨
      ∃ n Q, e.item = .cost n Q)) → ∀ p, ∃ t, slackEntries v cs N y es p = .ok t := by
  intro es
  induction es with
  | nil => exact fun _ p => ⟨p, rfl⟩
  | cons e es ih =>
    intro h p
    obtain ⟨h1, h2⟩ := h e List.mem_cons_self
    have ih := ih fun e' he' => h e' (List.mem_cons_of_mem _ he')
    simp only [slackEntries, gather_ok' h1, Outcome.bind_ok]
    rcases h2 with ⟨o, w, h2, h3, h4⟩ | ⟨n, Q, h2⟩
    · obtain ⟨q, k1, -, k3⟩ := Linear.C35_slack o h3 w h4.le (fun j => y (e.vars.getD j 0)) cs ⟨0, 0, 0, 0, 0⟩
      rw [h2]
      simp only [itemSlack, k1, Outcome.bind_ok]
      exact ih _
    · rw [h2]
      simp only [itemSlack, Outcome.bind_ok]
      exact ih _

theorem entries_linear {p : Iteration.Setup ℝ} {duals : List (List Nat)} {x : Iteration.State ℝ} (hr : Ready p duals x)
    (hp : Polyhedral x.es) (e : Entry ℝ) (he : e ∈ x.es) : (∀ v ∈ e.vars, v < p.N) ∧
      ((∃ o w, e.item = .linear o w ∧ 0 < o.n ∧ o.m = e.vars.length) ∨ ∃ n Q, e.item = .cost n Q) := by
  obtain ⟨-, h1, h2⟩ := hr.good e he
  have hu := hr.usable e he
  refine ⟨h1, ?_⟩
  rcases hp e he with ⟨o, w, ho⟩ | ⟨n, Q, ho⟩
  · rw [ho] at h2 hu
    exact Or.inl ⟨o, w, ho, hu, h2.1⟩
  · exact Or.inr ⟨n, Q, ho⟩

/-- The divergence is defined. -/
theorem divergenceMu_ok {v : Env ℝ} (hv : ∀ x, 0 ≤ x → SolveLoop.Spec.SqrtAt v.sqrt x) {p : Iteration.Setup ℝ}
    {duals : List (List Nat)} {x : Iteration.State ℝ} (hr : Ready p duals x) (hp : Polyhedral x.es) {S : Search ℝ}
    {f : Iteration.Factored ℝ} {solver : Sup.Solver ℝ} (hf : Iteration.factorize v p x = .ok f)
    (hsol : f.solver = some solver) : ∃ d, divergenceMu v S p x.es f.r solver = .ok d := by
  obtain ⟨y, h1, -⟩ := divergence_point hv hr hf hsol
  obtain ⟨t, h2⟩ := slackEntries_defined v p.cs y x.es (entries_linear hr hp) ⟨0, 0, 30000, -30000, rank x.es⟩
  exact ⟨Divergence.muFromDivergence v.sqrt S.factor t, by simp only [divergenceMu, h1, h2, Outcome.bind_ok]⟩

theorem rank_count {es : List (Entry ℝ)} (hp : Polyhedral es) : (rank es : ℝ) = count es := by
  rw [Gap.rank_eq]
  conv_lhs => rw [entries_nth es, List.map_map, sum_list]
  unfold count
  refine sum_congr rfl fun i hi => ?_
  rcases hp _ (nth_mem (mem_range.1 hi)) with ⟨o, w, ho⟩ | ⟨n, Q, ho⟩ <;> simp only [Function.comp_apply, ho, Item.rank, con]

/-- The data of the divergence. -/
theorem divergence_data {v : Env ℝ} (hv : ∀ x, 0 ≤ x → SolveLoop.Spec.SqrtAt v.sqrt x) {p : Iteration.Setup ℝ}
    {duals : List (List Nat)} {x : Iteration.State ℝ} (hr : Ready p duals x) (hp : Polyhedral x.es) (hc : NoCosts x.es)
    (hn : 1 ≤ count x.es) {S : Search ℝ} {f : Iteration.Factored ℝ} {solver : Sup.Solver ℝ}
    (hf : Iteration.factorize v p x = .ok f) (hsol : f.solver = some solver) :
    ∃ y t, solver.solveInPlace p.qr p.N (fun u => f.r.AQc u * p.cs - p.b u * p.bs) = .ok y ∧
      (∀ u < p.N, balance x.es (fun i r => weight (nth x.es i).item r * lam x.es p.cs y i r) u = p.bs * p.b u) ∧
      slackEntries v p.cs p.N y x.es ⟨0, 0, 30000, -30000, rank x.es⟩ = .ok t ∧
      divergenceMu v S p x.es f.r solver = .ok (Divergence.muFromDivergence v.sqrt S.factor t) ∧
      ((∀ i < x.es.length, ∀ r < (con (nth x.es i).item).n, |lam x.es p.cs y i r| ≤ 30000) →
        Divergence.Spec.DataOf (lamList p.cs y x.es) t) := by
  obtain ⟨y, h1, h2⟩ := divergence_point hv hr hf hsol
  obtain ⟨ls, g1, g2, g3⟩ := slackEntries_linear v p.cs y x.es fun e he => by
    obtain ⟨a, b | ⟨n, Q, b⟩⟩ := entries_linear hr hp e he
    · exact ⟨a, b⟩
    · exact absurd b (hc e he n Q)
  have e1 : (ls.map (·.1)).flatten = lamList p.cs y x.es := by rw [g1]; rfl
  have hne : ls ≠ [] := by
    rintro rfl
    have := lamList_length p.cs y x.es
    rw [← e1] at this
    simp only [List.map_nil, List.flatten_nil, List.length_nil, Nat.cast_zero] at this
    linarith
  refine ⟨y, _, h1, h2 hp hc, g3 _, by simp only [divergenceMu, h1, g3, Outcome.bind_ok], fun hb => ?_⟩
  have h3 := Divergence.C30_aggregate_partial ls hne g2 fun t ht z hz => by
    obtain ⟨i, hi, r, hr', rfl⟩ := mem_lamList (cs := p.cs) (y := y) (es := x.es) (x := z) (by
      rw [← e1]
      exact List.mem_flatten.2 ⟨t.1, List.mem_map_of_mem ht, hz⟩)
    exact hb i hi r hr'
  rw [e1] at h3
  have e2 : ((lamList p.cs y x.es).length : ℝ) = rank x.es := by rw [lamList_length, rank_count hp]
  rw [e2] at h3
  exact h3

theorem foldl_sums (ls : List (List ℝ × Divergence.Slack ℝ)) (hd : ∀ t ∈ ls, Divergence.Spec.DataOf t.1 t.2) :
    ∀ p : Divergence.Slack ℝ,
      ((ls.map (·.2)).foldl Divergence.combine p).frob = p.frob + ((ls.map (·.1)).flatten.map fun x => x ^ 2).sum ∧
      ((ls.map (·.2)).foldl Divergence.combine p).trace = p.trace + (ls.map (·.1)).flatten.sum ∧
      ((ls.map (·.2)).foldl Divergence.combine p).lmin ≤ p.lmin ∧ p.lmax ≤ ((ls.map (·.2)).foldl Divergence.combine p).lmax ∧
      ∀ x ∈ (ls.map (·.1)).flatten, ((ls.map (·.2)).foldl Divergence.combine p).lmin ≤ x ∧
        x ≤ ((ls.map (·.2)).foldl Divergence.combine p).lmax := by
  induction ls with
  | nil => intro p; simp
  | cons a ls ih =>
    intro p
    have ha := hd a List.mem_cons_self
    obtain ⟨h1, h2, h3, h4, h5⟩ := ih (fun t ht => hd t (List.mem_cons_of_mem _ ht)) (Divergence.combine p a.2)
    simp only [List.map_cons, List.foldl_cons, List.flatten_cons, List.map_append, List.sum_append]
    have e1 : (Divergence.combine p a.2).lmin ≤ p.lmin ∧ (Divergence.combine p a.2).lmin ≤ a.2.lmin := by
      simp only [Divergence.combine]
      split_ifs with h
      · exact ⟨h.le, le_rfl⟩
      · exact ⟨le_rfl, not_lt.1 h⟩
    have e2 : p.lmax ≤ (Divergence.combine p a.2).lmax ∧ a.2.lmax ≤ (Divergence.combine p a.2).lmax := by
      simp only [Divergence.combine]
      split_ifs with h
      · exact ⟨h.le, le_rfl⟩
      · exact ⟨le_rfl, not_lt.1 h⟩
    refine ⟨?_, ?_, h3.trans e1.1, e2.1.trans h4, fun x hx => ?_⟩
    · rw [h1, ← ha.frob]
      simp only [Divergence.combine]
      ring
    · rw [h2, ← ha.trace]
      simp only [Divergence.combine]
      ring
    · rcases List.mem_append.1 hx with hx | hx
      · exact ⟨(h3.trans e1.2).trans (ha.lmin_le x hx), (ha.le_lmax x hx).trans (e2.2.trans h4)⟩
      · exact h5 x hx

/-- The data of the divergence, whatever the size of the slacks. -/
theorem divergence_any {v : Env ℝ} (hv : ∀ x, 0 ≤ x → SolveLoop.Spec.SqrtAt v.sqrt x) {p : Iteration.Setup ℝ}
    {duals : List (List Nat)} {x : Iteration.State ℝ} (hr : Ready p duals x) (hp : Polyhedral x.es) (hc : NoCosts x.es)
    {S : Search ℝ} {f : Iteration.Factored ℝ} {solver : Sup.Solver ℝ}
    (hf : Iteration.factorize v p x = .ok f) (hsol : f.solver = some solver) :
    ∃ y t, (∀ u < p.N, balance x.es (fun i r => weight (nth x.es i).item r * lam x.es p.cs y i r) u = p.bs * p.b u) ∧
      divergenceMu v S p x.es f.r solver = .ok (Divergence.muFromDivergence v.sqrt S.factor t) ∧
      (∀ k, k * k * t.frob - 2 * k * t.trace + t.rank = rows x.es fun i r => (k * lam x.es p.cs y i r - 1) ^ 2) ∧
      ∀ i < x.es.length, ∀ r < (con (nth x.es i).item).n, t.lmin ≤ lam x.es p.cs y i r ∧ lam x.es p.cs y i r ≤ t.lmax := by
  obtain ⟨y, h1, h2⟩ := divergence_point hv hr hf hsol
  obtain ⟨ls, g1, g2, g3⟩ := slackEntries_linear v p.cs y x.es fun e he => by
    obtain ⟨a, b | ⟨n, Q, b⟩⟩ := entries_linear hr hp e he
    · exact ⟨a, b⟩
    · exact absurd b (hc e he n Q)
  have e1 : (ls.map (·.1)).flatten = lamList p.cs y x.es := by rw [g1]; rfl
  obtain ⟨k1, k2, -, -, k5⟩ := foldl_sums ls g2 ⟨0, 0, 30000, -30000, rank x.es⟩
  have k3 := Divergence.foldl_rank (ls.map (·.2)) (⟨0, 0, 30000, -30000, rank x.es⟩ : Divergence.Slack ℝ)
  rw [e1] at k1 k2 k5
  refine ⟨y, _, h2 hp hc, by simp only [divergenceMu, h1, g3, Outcome.bind_ok], fun k => ?_, fun i hi r hr' =>
    k5 _ (lamList_mem hi hr')⟩
  rw [k1, k2, k3]
  have e2 := lamList_sum p.cs y x.es fun a => a ^ 2
  have e3 := lamList_sum p.cs y x.es fun a => a
  rw [List.map_id'] at e3
  rw [e2, e3, rank_count hp]
  have e4 : count x.es = rows x.es fun _ _ => 1 := by simp [rows, count]
  simp only [zero_add]
  rw [e4, ← rows_mul, ← rows_mul, sub_eq_add_neg, ← neg_one_mul, ← rows_mul, ← rows_add, ← rows_add]
  exact rows_congr fun i _ r _ => by ring

/-- Near the central path the divergence increases the barrier parameter `k` by a factor, and the directions up to the
chosen parameter are short. -/
theorem divergence_grow {v : Env ℝ} (hv : ∀ x, 0 ≤ x → SolveLoop.Spec.SqrtAt v.sqrt x) (hexp : v.exp = Real.exp)
    {p : Iteration.Setup ℝ} {duals : List (List Nat)} {x x' : Iteration.State ℝ} (hr : Ready p duals x)
    (hp : Polyhedral x.es) (hc : NoCosts x.es) (hn : 1 ≤ count x.es) {S : Search ℝ} (hS : 0 < S.factor)
    (hB : S.factor * count x.es ≤ 1 / 32) {τ : ℝ} (hτ : 0 ≤ τ) (hτS : 16 * τ ^ 2 ≤ S.factor)
    {f : Iteration.Factored ℝ} {solver : Sup.Solver ℝ}
    (hf : Iteration.factorize v p x = .ok f) (hsol : f.solver = some solver) {k : ℝ} (hk : 1 / 24000 ≤ k) {st : Iteration.Step ℝ}
    (h : Iteration.iterate v p k x = .ok (some (st, x'))) (hst : st.normsqrd ≤ 2 * (S.factor * count x.es) ^ 2) :
    ∃ d, divergenceMu v S p x.es f.r solver = .ok d ∧ (1 + τ) * k ≤ d ∧
      ∀ k', k ≤ k' → k' ≤ d → ∀ st' x', Iteration.iterate v p k' x = .ok (some (st', x')) →
        st'.normsqrd ≤ S.factor * count x.es := by
  have he : ∀ x, 0 < v.exp x := fun x => hexp ▸ Real.exp_pos x
  have hs := shape_of hr hp
  have hk0 : 0 < k := lt_of_lt_of_le (by norm_num) hk
  obtain ⟨y, t, -, h1, -, g2, h2⟩ := divergence_data (S := S) hv hr hp hc hn hf hsol
  have hlen := lamList_length p.cs y x.es
  have key : ∀ κ st' x', Iteration.iterate v p κ x = .ok (some (st', x')) →
      st'.normsqrd = Divergence.Spec.distSq (lamList p.cs y x.es) κ := by
    intro κ st' x' hit
    have g1 := (iterated hexp hr hp hit (unregularized hv he hr hit)).1
    rw [g1.sum, direction_length hs (fun y u => gradients_none hp hc y u) h1 g1.newton]
    unfold Divergence.Spec.distSq
    rw [lamList_sum p.cs y x.es fun a => (κ * a - 1) ^ 2]
  have hd := key k st x' h
  rw [hd, ← hlen] at hst
  have hpos : 0 < S.factor * ((lamList p.cs y x.es).length : ℝ) := by rw [hlen]; exact mul_pos hS (by linarith)
  have hB' : S.factor * ((lamList p.cs y x.es).length : ℝ) ≤ 1 / 32 := by rw [hlen]; exact hB
  have g1 := h2 fun i hi r hr' => by
    have := (abs_le.1 ((Divergence.le_dist (k := k) (lamList_mem (cs := p.cs) (y := y) hi hr')).trans
      (Divergence.dist_sq_le (B := 1 / 16) (by norm_num) (hst.trans (by nlinarith)))))
    rw [abs_le]
    constructor <;> by_contra hcon <;> nlinarith [not_le.1 hcon]
  obtain ⟨g3, g4⟩ := Divergence.mu_grow hv g1 hS hk0 hτ hτS hB' hst
  refine ⟨_, g2, g3, fun k' h3 h4 st' x'' h5 => ?_⟩
  rw [key k' st' x'' h5, ← hlen]
  exact g4 k' h3 h4

/-- After a short direction the next one for the same parameter is shorter. -/
theorem divergence_next {v : Env ℝ} (hv : ∀ x, 0 ≤ x → SolveLoop.Spec.SqrtAt v.sqrt x) (hexp : v.exp = Real.exp)
    (hs : ∀ n, MatrixExp.Spec.Solves (v.solve n)) {p : Iteration.Setup ℝ} {duals : List (List Nat)}
    {x x' x'' : Iteration.State ℝ} (hr : Ready p duals x) (hp : Polyhedral x.es) {B k : ℝ} (hB : B ≤ 1)
    {st st' : Iteration.Step ℝ}
    (h : Iteration.iterate v p k x = .ok (some (st, x'))) (h' : Iteration.iterate v p k x' = .ok (some (st', x'')))
    (hd : st.normsqrd ≤ B) : st'.normsqrd ≤ 2 * B ^ 2 := by
  have he : ∀ x, 0 < v.exp x := fun x => hexp ▸ Real.exp_pos x
  obtain ⟨h1, h2⟩ := iterated hexp hr hp h (unregularized hv he hr h)
  obtain ⟨h3, -⟩ := Iteration.ready_next hv he hs hr h (unregularized hv he hr h) fun e he' hd' => by
    rcases hp e he' with ⟨o, w, ho⟩ | ⟨n, Q, ho⟩ <;> rw [ho] at hd' <;> exact hd'.elim
  have h4 := (iterated hexp h3 h2 h' (unregularized hv he h3 h')).1
  have h5 := iterated_quadratic h1 h4 (iterated_le_one h1 (by linarith))
  have h6 := iterated_norm h1
  have h7 := iterated_nonneg h1
  nlinarith

end Verif.Whole
