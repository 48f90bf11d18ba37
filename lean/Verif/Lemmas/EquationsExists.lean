import Verif.Lemmas.Equations
import Verif.Lemmas.MatrixExists
import Verif.Spec.EquationsExists

/-!
# Lemmas for C101: existence, uniqueness and distance of central points with equations

The equations are replaced by zero costs, and central points are sought among the points that satisfy them.
-/

namespace Verif.MatrixCentering

open Finset Verif.Dual
open Whole.Spec (nth)
open Iteration.Spec (Insensitive)
open Gap.Spec (Separate)
open Centering.Spec (gradient gradients curvature)
open ConeCentering.Spec (cells)
open Spec (Inside force separation distance Central unknowns Point Positive pull product products Strict DualAbove SlackAbove
  Equations reaction reactions CentralOn StrictOn Multiplier DeterminedOn)

/-- An equation replaced by a zero cost. -/
noncomputable def soft (e : Entry ℝ) : Entry ℝ :=
  ⟨e.vars, match e.item with
    | .equality _ => .cost e.vars.length fun _ _ => 0
    | x => x⟩

theorem soft_unknowns (e : Entry ℝ) : unknowns (soft e) = unknowns e := rfl

theorem soft_vars (e : Entry ℝ) : (soft e).vars = e.vars := rfl

theorem soft_gradient (e : Entry ℝ) (y : Nat → ℝ) (j : Nat) : gradient y (soft e).item j = gradient y e.item j := by
  obtain ⟨vars, x⟩ := e
  cases x <;> simp [soft, gradient]

theorem soft_force (e : Entry ℝ) (len : Nat) (c : ℝ) (y : Nat → ℝ) (j : Nat) :
    force (soft e).item len c y j = force e.item len c y j := by
  obtain ⟨vars, x⟩ := e
  cases x <;> simp [soft, force, gradient, cells]

theorem soft_inside (e : Entry ℝ) (len : Nat) (c : ℝ) (y : Nat → ℝ) :
    Inside (soft e).item len c y ↔ Inside e.item len c y := by
  obtain ⟨vars, x⟩ := e
  cases x <;> simp [soft, Inside, cells]

theorem soft_positive (e : Entry ℝ) (X : Point) : Positive (soft e).item X ↔ Positive e.item X := by
  obtain ⟨vars, x⟩ := e
  cases x <;> simp [soft, Positive, cells]

theorem soft_pull (e : Entry ℝ) (X : Point) (j : Nat) : pull (soft e).item X j = pull e.item X j := by
  obtain ⟨vars, x⟩ := e
  cases x <;> simp [soft, pull, cells]

theorem soft_product (e : Entry ℝ) (len : Nat) (c : ℝ) (y : Nat → ℝ) (X : Point) :
    product (soft e).item len c y X = product e.item len c y X := by
  obtain ⟨vars, x⟩ := e
  cases x <;> simp [soft, product, cells]

theorem soft_separation (e : Entry ℝ) (len : Nat) (c : ℝ) (y : Nat → ℝ) :
    separation (soft e).item len c y = separation e.item len c y := by
  obtain ⟨vars, x⟩ := e
  cases x <;> simp [soft, separation, cells]

theorem soft_rank (e : Entry ℝ) : (soft e).item.rank = e.item.rank := by
  obtain ⟨vars, x⟩ := e
  cases x <;> simp [soft, Item.rank]

theorem soft_dual (a : ℝ) (e : Entry ℝ) (X : Point) : DualAbove a (soft e).item X ↔ DualAbove a e.item X := by
  obtain ⟨vars, x⟩ := e
  cases x <;> simp [soft, DualAbove, cells]

theorem soft_slack (a : ℝ) (e : Entry ℝ) (len : Nat) (c : ℝ) (y : Nat → ℝ) :
    SlackAbove a (soft e).item len c y ↔ SlackAbove a e.item len c y := by
  obtain ⟨vars, x⟩ := e
  cases x <;> simp [soft, SlackAbove, cells]

theorem soft_insensitive (e : Entry ℝ) (y : Nat → ℝ) : Insensitive y (soft e).item ↔ Insensitive y e.item := by
  obtain ⟨vars, x⟩ := e
  cases x <;> simp [soft, Insensitive]

theorem nth_soft {es : List (Entry ℝ)} {i : Nat} (hi : i < es.length) : nth (es.map soft) i = soft (nth es i) := by
  refine Whole.nth_of ?_
  rw [List.getElem?_map, Whole.nth_get hi]
  rfl

/-- What is used of a program with equations. -/
structure EqShape (es : List (Entry ℝ)) (N : Nat) : Prop where
  good : ∀ e ∈ es, Gap.Spec.Good e N
  usable : ∀ e ∈ es, Iteration.Spec.Usable e.item ∨ ∃ o, e.item = .equality o

theorem EqShape.soft {es : List (Entry ℝ)} {N : Nat} (hs : EqShape es N) : ConicShape (es.map soft) N := by
  refine ⟨fun e he => ?_, fun e he => ?_⟩
  · obtain ⟨e₀, he₀, rfl⟩ := List.mem_map.1 he
    exact ⟨(hs.good e₀ he₀).1, (hs.good e₀ he₀).2.1⟩
  · obtain ⟨e₀, he₀, rfl⟩ := List.mem_map.1 he
    have hg := hs.good e₀ he₀
    refine conicItem_of (N := N) ⟨hg.1, hg.2.1, ?_⟩ ?_
    · obtain ⟨vars, x⟩ := e₀
      have hg' := hg.2.2
      cases x <;> first | exact hg' | skip
      exact ⟨rfl, fun _ _ _ _ => rfl, fun _ => by simp⟩
    · have hu := hs.usable e₀ he₀
      obtain ⟨vars, x⟩ := e₀
      cases x <;> first | exact hu.resolve_right (by rintro ⟨o, ho⟩; cases ho) | trivial

theorem soft_distance (es : List (Entry ℝ)) (c : ℝ) (y : Nat → ℝ) : distance (es.map soft) c y = distance es c y := by
  unfold distance
  rw [List.length_map]
  refine sum_congr rfl fun i hi => ?_
  rw [nth_soft (mem_range.1 hi), soft_separation]
  rfl

theorem soft_rank_sum (es : List (Entry ℝ)) : (rank (es.map soft) : ℝ) = rank es := by
  rw [rank_sum, rank_sum, List.length_map]
  refine sum_congr rfl fun i hi => ?_
  rw [nth_soft (mem_range.1 hi), soft_rank]

theorem soft_products (es : List (Entry ℝ)) (c : ℝ) (y : Nat → ℝ) (X : Nat → Point) :
    products (es.map soft) c y X = products es c y X := by
  unfold products
  rw [List.length_map]
  refine sum_congr rfl fun i hi => ?_
  rw [nth_soft (mem_range.1 hi), soft_product]
  rfl

theorem soft_curvature (es : List (Entry ℝ)) (N : Nat) (y : Nat → ℝ) :
    curvature (es.map soft) N y = curvature es N y := by
  unfold curvature gradients
  rw [List.length_map]
  refine sum_congr rfl fun u _ => ?_
  congr 1
  refine sum_congr rfl fun i hi => ?_
  rw [nth_soft (mem_range.1 hi)]
  exact Whole.ventry_congr (fun j _ => soft_gradient _ _ j) u

theorem ventry_add (L : List Nat) (f g : Nat → ℝ) (u : Nat) :
    Sup.Spec.ventry L (fun j => f j + g j) u = Sup.Spec.ventry L f u + Sup.Spec.ventry L g u := by
  unfold Sup.Spec.ventry
  split_ifs
  · rfl
  · simp

theorem soft_forces (es : List (Entry ℝ)) (c : ℝ) (y : Nat → ℝ) (u : Nat) :
    ∑ i ∈ range (es.map soft).length, Sup.Spec.ventry (nth (es.map soft) i).vars
      (force (nth (es.map soft) i).item (nth (es.map soft) i).vars.length c (unknowns (nth (es.map soft) i) y)) u =
    ∑ i ∈ range es.length, Sup.Spec.ventry (nth es i).vars
      (force (nth es i).item (nth es i).vars.length c (unknowns (nth es i) y)) u := by
  rw [List.length_map]
  refine sum_congr rfl fun i hi => ?_
  rw [nth_soft (mem_range.1 hi)]
  exact Whole.ventry_congr (fun j _ => soft_force _ _ _ _ j) u

theorem centralOn_iff (es : List (Entry ℝ)) (N : Nat) (g : Nat → ℝ) (c : ℝ) (z : Nat → ℝ) :
    CentralOn es N g c z ↔ Central (es.map soft) N (fun u => g u - reactions es z u) c z ∧ Equations es c z := by
  have h : ∀ u, ∑ i ∈ range es.length, Sup.Spec.ventry (nth es i).vars
      (fun j => force (nth es i).item (nth es i).vars.length c (unknowns (nth es i) z) j +
        reaction (nth es i).item (unknowns (nth es i) z) j) u =
      ∑ i ∈ range es.length, Sup.Spec.ventry (nth es i).vars
        (force (nth es i).item (nth es i).vars.length c (unknowns (nth es i) z)) u + reactions es z u := fun u => by
    unfold reactions
    rw [← sum_add_distrib]
    exact sum_congr rfl fun i _ => ventry_add _ _ _ _
  constructor
  · intro hz
    refine ⟨⟨fun e he => ?_, fun u hu => ?_⟩, hz.equations⟩
    · obtain ⟨e₀, he₀, rfl⟩ := List.mem_map.1 he
      exact (soft_inside e₀ _ c _).2 (hz.inside e₀ he₀)
    · rw [soft_forces, ← hz.stationary u hu, h]
      ring
  · intro ⟨hz, he⟩
    refine ⟨fun e he => (soft_inside e _ c _).1 (hz.inside _ (List.mem_map_of_mem he)), he, fun u hu => ?_⟩
    have := hz.stationary u hu
    rw [soft_forces] at this
    rw [h, this]
    ring

theorem strictOn_iff (es : List (Entry ℝ)) (N : Nat) (g : Nat → ℝ) (c : ℝ) (y : Nat → ℝ) (X : Nat → Point)
    (w l : Nat → ℝ) :
    StrictOn es N g c y X w l ↔ Strict (es.map soft) N (fun u => g u - reactions es l u) c y X w ∧ Equations es c y := by
  have h : ∀ u, ∑ i ∈ range (es.map soft).length, Sup.Spec.ventry (nth (es.map soft) i).vars
      (fun j => pull (nth (es.map soft) i).item (X i) j +
        gradient (unknowns (nth (es.map soft) i) w) (nth (es.map soft) i).item j) u =
      ∑ i ∈ range es.length, Sup.Spec.ventry (nth es i).vars (fun j => pull (nth es i).item (X i) j +
        gradient (unknowns (nth es i) w) (nth es i).item j) u := fun u => by
    rw [List.length_map]
    refine sum_congr rfl fun i hi => ?_
    rw [nth_soft (mem_range.1 hi)]
    refine Whole.ventry_congr (fun j _ => ?_) u
    rw [soft_pull, soft_gradient]
    rfl
  constructor
  · intro hz
    refine ⟨⟨fun e he => ?_, fun i hi => ?_, fun u hu => ?_⟩, hz.equations⟩
    · obtain ⟨e₀, he₀, rfl⟩ := List.mem_map.1 he
      exact (soft_inside e₀ _ c _).2 (hz.primal e₀ he₀)
    · rw [List.length_map] at hi
      rw [nth_soft hi, soft_positive]
      exact hz.dual i hi
    · rw [h, ← hz.balance u hu]
      ring
  · intro ⟨hz, he⟩
    refine ⟨fun e he => (soft_inside e _ c _).1 (hz.primal _ (List.mem_map_of_mem he)), he, fun i hi => ?_, fun u hu => ?_⟩
    · have := hz.dual i (by rwa [List.length_map])
      rwa [nth_soft hi, soft_positive] at this
    · have := hz.equations u hu
      rw [h] at this
      rw [this]
      ring

/-! ### Reactions -/

theorem reaction_scale (x : Item ℝ) (a : ℝ) (l : Nat → ℝ) (j : Nat) :
    reaction x (fun u => a * l u) j = a * reaction x l j := by
  cases x <;> simp only [reaction, mul_zero]
  split_ifs
  · rw [mul_sum]
    exact sum_congr rfl fun r _ => by ring
  · rw [mul_zero]

theorem reactions_scale (es : List (Entry ℝ)) (a : ℝ) (l : Nat → ℝ) (u : Nat) :
    reactions es (fun u => a * l u) u = a * reactions es l u := by
  unfold reactions
  rw [mul_sum]
  refine sum_congr rfl fun i _ => ?_
  rw [← ventry_scale]
  exact Whole.ventry_congr (fun j _ => reaction_scale _ a _ j) u

theorem equations_scale {es : List (Entry ℝ)} {c a : ℝ} {y : Nat → ℝ} (h : Equations es c y) :
    Equations es (a * c) fun u => a * y u := fun e he o ho r hr => by
  have := h e he o ho r hr
  rw [mul_assoc, ← this, mul_sum]
  exact sum_congr rfl fun j _ => by simp only [unknowns]; ring

theorem equations_sub {es : List (Entry ℝ)} {c : ℝ} {y z : Nat → ℝ} (h : Equations es c y) (h' : Equations es c z) :
    Equations es 0 fun u => y u - z u := fun e he o ho r hr => by
  have h1 := h e he o ho r hr
  have h2 := h' e he o ho r hr
  have : ∑ j ∈ range o.q, o.A r j * unknowns e (fun u => y u - z u) j =
      ∑ j ∈ range o.q, o.A r j * unknowns e y j - ∑ j ∈ range o.q, o.A r j * unknowns e z j := by
    rw [← sum_sub_distrib]
    exact sum_congr rfl fun j _ => by simp only [unknowns]; ring
  rw [this, h1, h2]
  ring

/-- Reactions are orthogonal to the solutions of the homogeneous equations. -/
theorem reactions_orthogonal {es : List (Entry ℝ)} {N : Nat} (hs : EqShape es N) {d : Nat → ℝ} (h : Equations es 0 d)
    (l : Nat → ℝ) : ∑ u ∈ range N, d u * reactions es l u = 0 := by
  unfold reactions
  simp only [mul_sum]
  rw [sum_comm]
  refine sum_eq_zero fun i hi => ?_
  have hm := Whole.nth_mem (mem_range.1 hi)
  have hg := hs.good _ hm
  rw [Gap.sum_ventry hg.1 hg.2.1]
  by_cases he : ∃ o, (nth es i).item = .equality o
  · obtain ⟨o, ho⟩ := he
    have h1 := hg.2.2
    rw [ho] at h1
    rw [ho, ← h1.2, sum_range_add]
    simp only [reaction]
    have h2 := equality_pair (l := fun r => unknowns (nth es i) l (o.q + r)) (d := unknowns (nth es i) d) (A := o.A) (q := o.q)
      (p := o.p) (fun r hr => by rw [h _ hm o ho r hr, zero_mul])
    have h3 : ∑ j ∈ range o.q, d ((nth es i).vars.getD j 0) *
        (if j < o.q then ∑ r ∈ range o.p, o.A r j * unknowns (nth es i) l (o.q + r) else 0) = 0 := by
      rw [← h2]
      exact sum_congr rfl fun j hj => by rw [if_pos (mem_range.1 hj)]; rfl
    rw [h3, zero_add]
    exact sum_eq_zero fun j _ => by simp
  · exact sum_eq_zero fun j _ => by rw [reaction_eq he, mul_zero]

/-! ### Existence -/

/-- Row `r` of an equation. -/
noncomputable def rowOf (x : Item ℝ) (r j : Nat) : ℝ :=
  match x with
  | .equality o => if r < o.p ∧ j < o.q then o.A r j else 0
  | _ => 0

/-- The left-hand side of row `r`. -/
theorem row_sum {es : List (Entry ℝ)} {N : Nat} (hs : EqShape es N) {i : Nat} (hi : i < es.length) {o : Equality.Con ℝ}
    (ho : (nth es i).item = .equality o) {r : Nat} (hr : r < o.p) (x : Nat → ℝ) :
    ∑ u ∈ range N, x u * Sup.Spec.ventry (nth es i).vars (rowOf (nth es i).item r) u =
      ∑ j ∈ range o.q, o.A r j * unknowns (nth es i) x j := by
  have hg := hs.good _ (Whole.nth_mem hi)
  have h1 := hg.2.2
  rw [ho] at h1
  rw [Gap.sum_ventry hg.1 hg.2.1, ho, ← h1.2, sum_range_add]
  simp only [rowOf, hr, true_and]
  have h2 : ∑ j ∈ range o.q, x ((nth es i).vars.getD j 0) * (if j < o.q then o.A r j else 0) =
      ∑ j ∈ range o.q, o.A r j * unknowns (nth es i) x j :=
    sum_congr rfl fun j hj => by rw [if_pos (mem_range.1 hj), mul_comm]; rfl
  rw [h2, add_eq_left]
  exact sum_eq_zero fun j _ => by simp

/-- Reactions are combinations of rows. -/
theorem reaction_rows {x : Item ℝ} {N : Nat} (h : ∀ o, x = .equality o → o.p ≤ N) (m : Nat → ℝ) (l : Nat → ℝ)
    (hl : ∀ o, x = .equality o → ∀ r < o.p, l (o.q + r) = m r) (j : Nat) :
    reaction x l j = ∑ r ∈ range N, m r * rowOf x r j := by
  by_cases hx : ∃ o, x = .equality o
  · obtain ⟨o, rfl⟩ := hx
    obtain ⟨t, rfl⟩ := Nat.exists_eq_add_of_le (h o rfl)
    rw [sum_range_add]
    have h2 : ∑ k ∈ range t, m (o.p + k) * rowOf (.equality o) (o.p + k) j = 0 :=
      sum_eq_zero fun k _ => by simp [rowOf]
    rw [h2, add_zero]
    by_cases hj : j < o.q
    · simp only [reaction, if_pos hj]
      refine sum_congr rfl fun r hr => ?_
      rw [hl o rfl r (mem_range.1 hr)]
      simp only [rowOf, mem_range.1 hr, hj, true_and, if_true]
      ring
    · simp only [reaction, if_neg hj, rowOf, and_false, if_false, mul_zero, sum_const_zero, hj]
  · rw [reaction_eq hx]
    refine (sum_eq_zero fun r _ => ?_).symm
    cases x <;> first | exact absurd ⟨_, rfl⟩ hx | exact mul_zero _

theorem vars_le {e : Entry ℝ} {N : Nat} (h : e.vars.Nodup) (h' : ∀ v ∈ e.vars, v < N) : e.vars.length ≤ N := by
  rw [← List.toFinset_card_of_nodup h, ← card_range N]
  exact card_le_card fun v hv => mem_range.2 (h' v (List.mem_toFinset.1 hv))

theorem getD_inj {L : List Nat} (h : L.Nodup) {i j : Nat} (hi : i < L.length) (hj : j < L.length)
    (he : L.getD i 0 = L.getD j 0) : i = j := by
  rw [List.getD_eq_getElem?_getD, List.getD_eq_getElem?_getD, List.getElem?_eq_getElem hi, List.getElem?_eq_getElem hj] at he
  exact (h.getElem_inj_iff).1 he

/-- A multiplier belongs to one row of one equation. -/
theorem multiplier_unique {es : List (Entry ℝ)} {N : Nat} (hs : EqShape es N) {b : Nat → ℝ} (hsep : Separate es b)
    {i i' : Nat} (hi : i < es.length) (hi' : i' < es.length) {o o' : Equality.Con ℝ} (ho : (nth es i).item = .equality o)
    (ho' : (nth es i').item = .equality o') {r r' : Nat} (hr : r < o.p) (hr' : r' < o'.p)
    (h : (nth es i).vars.getD (o.q + r) 0 = (nth es i').vars.getD (o'.q + r') 0) : i' = i ∧ r' = r := by
  have hg := hs.good _ (Whole.nth_mem hi)
  have hg' := hs.good _ (Whole.nth_mem hi')
  have h1 := hg.2.2
  have h2 := hg'.2.2
  rw [ho] at h1
  rw [ho'] at h2
  have hii : i' = i := by
    by_contra hne
    refine ((hsep i _ o (Whole.nth_get hi) ho r hr).2 i' _ (Whole.nth_get hi') hne) ?_
    rw [h]
    have hlt : o'.q + r' < (nth es i').vars.length := by
      have := h2.2
      omega
    exact ConeCentering.getD_mem hlt
  subst hii
  rw [ho, Item.equality.injEq] at ho'
  subst ho'
  have hlen := h1.2
  have := getD_inj hg.1 (by omega) (by omega) h
  exact ⟨rfl, by omega⟩

/-- Multipliers do not occur in other constraints. -/
theorem multiplier_other {es : List (Entry ℝ)} {N : Nat} (hs : EqShape es N) {b : Nat → ℝ} (hsep : Separate es b) {i : Nat}
    (hi : i < es.length) {u : Nat} (hu : Multiplier es u) (hv : u ∈ (nth es i).vars) :
    ∃ o, (nth es i).item = .equality o ∧ ∃ r < o.p, u = (nth es i).vars.getD (o.q + r) 0 := by
  obtain ⟨e, he, o, ho, r, hr, rfl⟩ := hu
  obtain ⟨k, hk⟩ := List.getElem?_of_mem he
  by_cases hki : i = k
  · subst hki
    have := Whole.nth_of hk
    subst this
    exact ⟨o, ho, r, hr, rfl⟩
  · exact absurd hv ((hsep k e o hk ho r hr).2 i _ (Whole.nth_get hi) hki)

/-- Columns of equations are not multipliers. -/
theorem column_not {es : List (Entry ℝ)} {N : Nat} (hs : EqShape es N) {b : Nat → ℝ} (hsep : Separate es b) {i : Nat}
    (hi : i < es.length) {o : Equality.Con ℝ} (ho : (nth es i).item = .equality o) {j : Nat} (hj : j < o.q) :
    ¬ Multiplier es ((nth es i).vars.getD j 0) := by
  have hg := hs.good _ (Whole.nth_mem hi)
  have h1 := hg.2.2
  rw [ho] at h1
  have hlen := h1.2
  intro hm
  obtain ⟨o', ho', r, hr, h⟩ := multiplier_other hs hsep hi hm (by
    have hlt : j < (nth es i).vars.length := by omega
    exact ConeCentering.getD_mem hlt)
  rw [ho, Item.equality.injEq] at ho'
  subst ho'
  have := getD_inj hg.1 (by omega) (by omega) h
  omega

/-- Nothing acts on multipliers. -/
theorem multiplier_zero {es : List (Entry ℝ)} {N : Nat} (hs : EqShape es N) {b : Nat → ℝ} (hsep : Separate es b)
    {F : Nat → Nat → ℝ} (hF : ∀ i < es.length, ∀ o, (nth es i).item = .equality o → ∀ r < o.p, F i (o.q + r) = 0)
    {u : Nat} (hu : Multiplier es u) : ∑ i ∈ range es.length, Sup.Spec.ventry (nth es i).vars (F i) u = 0 := by
  refine sum_eq_zero fun i hi => ?_
  have hi := mem_range.1 hi
  unfold Sup.Spec.ventry
  split_ifs with hv
  · obtain ⟨o, ho, r, hr, h⟩ := multiplier_other hs hsep hi hu hv
    have hg := hs.good _ (Whole.nth_mem hi)
    have h1 := hg.2.2
    rw [ho] at h1
    have hlen := h1.2
    have hlt := List.idxOf_lt_length_iff.2 hv
    have h2 : (nth es i).vars.getD ((nth es i).vars.idxOf u) 0 = u := by
      rw [List.getD_eq_getElem?_getD, List.getElem?_eq_getElem hlt]
      exact List.getElem_idxOf hlt
    rw [getD_inj hg.1 hlt (by omega) (h2.trans h)]
    exact hF i hi o ho r hr
  · rfl

/-- Forces depend on the unknowns of the constraint only. -/
theorem force_congr {x : Item ℝ} {len : Nat} (hx : ConicItem x len) (c : ℝ) {y z : Nat → ℝ} (h : ∀ j < len, y j = z j)
    (j : Nat) : force x len c y j = force x len c z j := by
  rcases hx with (⟨m, o, w, rfl, rfl, -⟩ | ⟨hk, -⟩) | ⟨d, m, hd, o, w, rfl, rfl, -⟩
  · have e : Lmi.Spec.slack o c y = Lmi.Spec.slack o c z := by
      unfold Lmi.Spec.slack
      congr 1
      exact sum_congr rfl fun j hj => by rw [h j (mem_range.1 hj)]
    change (o.A j * (Lmi.Spec.slack o c y)⁻¹).trace = (o.A j * (Lmi.Spec.slack o c z)⁻¹).trace
    rw [e]
  · have hv := vector_of hk
    have e : ∀ r, ConeCentering.slackAt x len c y r = ConeCentering.slackAt x len c z r := fun r => by
      rw [← cellSlack_eq, ← cellSlack_eq]
      unfold Spec.cellSlack
      congr 1
      · congr 1
        exact sum_congr rfl fun j hj => by rw [h j (mem_range.1 hj)]
      · funext l
        congr 1
        exact sum_congr rfl fun j hj => by rw [h j (mem_range.1 hj)]
    have e2 : gradient y x j = gradient z x j := by
      rcases hk with ⟨o, w, rfl, -⟩ | ⟨o, w, rfl, -⟩ | ⟨o, w, rfl, -⟩ | ⟨n, Q, rfl, rfl, -⟩ <;> first | rfl | skip
      exact sum_congr rfl fun l hl => by rw [h l (mem_range.1 hl)]
    rw [hv.force, hv.force, e2]
    simp only [e]
  · have e : Spec.hyperSlack o c y = Spec.hyperSlack o c z := by
      unfold Spec.hyperSlack HermLmi.Spec.slack
      funext k r s
      congr 1
      exact sum_congr rfl fun j hj => by rw [h j (mem_range.1 hj)]
    change HermLmi.Spec.inner _ (Spec.hyperInverse (Spec.hyperSlack o c y)) =
      HermLmi.Spec.inner _ (Spec.hyperInverse (Spec.hyperSlack o c z))
    rw [e]

/-- Central points with equations exist. -/
theorem centralOn_exists {es : List (Entry ℝ)} {N : Nat} (hs : EqShape es N) {b : Nat → ℝ} (hsep : Separate es b)
    (hd : DeterminedOn N es) {g : Nat → ℝ} {c : ℝ} {y : Nat → ℝ} {X : Nat → Point} {w l : Nat → ℝ}
    (h : StrictOn es N g c y X w l) : ∃ z, CentralOn es N g c z := by
  classical
  obtain ⟨h1, h2⟩ := (strictOn_iff es N g c y X w l).1 h
  set a : (Fin es.length × Fin N) ⊕ Fin N → Nat → ℝ := fun k => match k with
    | .inl (i, r) => Sup.Spec.ventry (nth es i).vars (rowOf (nth es i).item r)
    | .inr v => fun u => if Multiplier es v ∧ u = v then 1 else 0 with ha
  have hple : ∀ i < es.length, ∀ o, (nth es i).item = .equality o → o.p ≤ N := fun i hi o ho => by
    have hg := hs.good _ (Whole.nth_mem hi)
    have h3 := hg.2.2
    rw [ho] at h3
    have h4 := vars_le hg.1 hg.2.1
    have := h3.2
    omega
  have hidx : ∀ e ∈ es, ∃ i < es.length, nth es i = e := fun e he => by
    obtain ⟨i, hi⟩ := List.getElem?_of_mem he
    exact ⟨i, (List.getElem?_eq_some_iff.1 hi).1, Whole.nth_of hi⟩
  have hrows : ∀ (x : Nat → ℝ) i (hi : i < es.length) o (ho : (nth es i).item = .equality o) r (hr : r < o.p),
      ∑ j ∈ range o.q, o.A r j * unknowns (nth es i) x j =
        ∑ u ∈ range N, x u * a (.inl (⟨i, hi⟩, ⟨r, hr.trans_le (hple i hi o ho)⟩)) u := fun x i hi o ho r hr =>
    (row_sum hs hi ho hr x).symm
  obtain ⟨z, m, hz, hza⟩ := central_exists_on hs.soft a (fun x hx hk u hu => by
    have hE : Equations es 0 x := fun e he o ho r hr => by
      obtain ⟨i, hi, rfl⟩ := hidx e he
      exact ((hrows x i hi o ho r hr).trans (hk (.inl (⟨i, hi⟩, ⟨r, hr.trans_le (hple i hi o ho)⟩)))).trans (zero_mul _).symm
    rcases hd x (fun e he => by
      obtain ⟨i, hi, rfl⟩ := hidx e he
      have := hx i (by rwa [List.length_map])
      rwa [nth_soft hi, soft_insensitive] at this) hE u hu with hm | h0
    · have := hk (.inr ⟨u, hu⟩)
      simp only [ha, hm, true_and, mul_ite, mul_one, mul_zero, sum_ite_eq', mem_range, hu, if_true] at this
      exact this
    · exact h0) h1
  -- the multipliers
  set M : Nat → Nat → ℝ := fun i r => match (nth es i).item with
    | .equality o => unknowns (nth es i) l (o.q + r) -
        if hir : i < es.length ∧ r < N then m (.inl (⟨i, hir.1⟩, ⟨r, hir.2⟩)) else 0
    | _ => 0 with hM
  set z' : Nat → ℝ := fun u => if hu : ∃ i r, i < es.length ∧ ∃ o, (nth es i).item = .equality o ∧ r < o.p ∧
      u = (nth es i).vars.getD (o.q + r) 0 then M hu.choose hu.choose_spec.choose else z u with hz'
  have hmult : ∀ u, Multiplier es u ↔ ∃ i r, i < es.length ∧ ∃ o, (nth es i).item = .equality o ∧ r < o.p ∧
      u = (nth es i).vars.getD (o.q + r) 0 := fun u => by
    constructor
    · rintro ⟨e, he, o, ho, r, hr, rfl⟩
      obtain ⟨i, hi, rfl⟩ := hidx e he
      exact ⟨i, r, hi, o, ho, hr, rfl⟩
    · rintro ⟨i, r, hi, o, ho, hr, rfl⟩
      exact ⟨_, Whole.nth_mem hi, o, ho, r, hr, rfl⟩
  have hval : ∀ i < es.length, ∀ o, (nth es i).item = .equality o → ∀ r < o.p,
      unknowns (nth es i) z' (o.q + r) = M i r := fun i hi o ho r hr => by
    have hu : ∃ i' r', i' < es.length ∧ ∃ o', (nth es i').item = .equality o' ∧ r' < o'.p ∧
      (nth es i).vars.getD (o.q + r) 0 = (nth es i').vars.getD (o'.q + r') 0 := ⟨i, r, hi, o, ho, hr, rfl⟩
    have e : unknowns (nth es i) z' (o.q + r) = M hu.choose hu.choose_spec.choose := by
      simp only [unknowns, hz']
      rw [dif_pos hu]
    obtain ⟨hi', o', ho', hr', hv⟩ := hu.choose_spec.choose_spec
    obtain ⟨e1, e2⟩ := multiplier_unique hs hsep hi hi' ho ho' hr hr' hv
    rw [e, e2, e1]
  have hsame : ∀ u, ¬ Multiplier es u → z' u = z u := fun u hu => by
    simp only [hz']
    rw [dif_neg (fun h => hu ((hmult u).2 h))]
  have hconic : ∀ i < es.length, (¬ ∃ o, (nth es i).item = .equality o) → ∀ j < (nth es i).vars.length,
      unknowns (nth es i) z' j = unknowns (nth es i) z j := fun i hi hne j hj => by
    refine hsame _ fun hm => ?_
    obtain ⟨o, ho, -⟩ := multiplier_other hs hsep hi hm (ConeCentering.getD_mem hj)
    exact hne ⟨o, ho⟩
  have hforce : ∀ i < es.length, ∀ j < (nth es i).vars.length,
      force (nth es i).item (nth es i).vars.length c (unknowns (nth es i) z') j =
        force (nth es i).item (nth es i).vars.length c (unknowns (nth es i) z) j := fun i hi j hj => by
    by_cases he : ∃ o, (nth es i).item = .equality o
    · obtain ⟨o, ho⟩ := he
      rw [ho, force_equality, force_equality]
    · have hm := Whole.nth_mem hi
      exact force_congr (conicItem_of (hs.good _ hm) ((hs.usable _ hm).resolve_right he)) c (hconic i hi he) j
  refine ⟨z', fun e he => ?_, fun e he o ho r hr => ?_, fun u hu => ?_⟩
  · obtain ⟨i, hi, rfl⟩ := hidx e he
    by_cases heq : ∃ o, (nth es i).item = .equality o
    · obtain ⟨o, ho⟩ := heq
      rw [ho]
      exact fun r hr => absurd hr (Nat.not_lt_zero r)
    · refine (inside_congr (conicItem_of (hs.good _ he) ((hs.usable _ he).resolve_right heq)) c (hconic i hi heq)).2 ?_
      have := hz.inside _ (List.mem_map_of_mem (f := soft) he)
      exact (soft_inside _ _ c _).1 this
  · obtain ⟨i, hi, rfl⟩ := hidx e he
    have e1 : ∑ j ∈ range o.q, o.A r j * unknowns (nth es i) z' j = ∑ j ∈ range o.q, o.A r j * unknowns (nth es i) z j :=
      sum_congr rfl fun j hj => by
        rw [show unknowns (nth es i) z' j = unknowns (nth es i) z j from
          hsame _ (column_not hs hsep hi ho (mem_range.1 hj))]
    exact e1.trans (((hrows z i hi o ho r hr).trans (hza (.inl (⟨i, hi⟩, ⟨r, hr.trans_le (hple i hi o ho)⟩)))).trans ((hrows y i hi o ho r hr).symm.trans (h2 _ he o ho r hr)))
  · by_cases hm : Multiplier es u
    · rw [multiplier_zero hs hsep (F := fun i j => force (nth es i).item (nth es i).vars.length c (unknowns (nth es i) z') j +
        reaction (nth es i).item (unknowns (nth es i) z') j) (fun i hi o ho r hr => by
          simp only [ho, force_equality, zero_add, reaction]
          rw [if_neg (by omega)]) hm, ← h.balance u hu]
      rw [multiplier_zero hs hsep (fun i hi o ho r hr => by
        rw [ho]
        simp [pull, gradient, cells]) hm, zero_add]
      exact (multiplier_zero hs hsep (fun i hi o ho r hr => by
        rw [ho]
        simp only [reaction]
        rw [if_neg (by omega)]) hm).symm
    · have e1 := hz.stationary u hu
      rw [soft_forces] at e1
      have e2 : ∑ i ∈ range es.length, Sup.Spec.ventry (nth es i).vars (fun j =>
          force (nth es i).item (nth es i).vars.length c (unknowns (nth es i) z') j +
          reaction (nth es i).item (unknowns (nth es i) z') j) u =
          ∑ i ∈ range es.length, Sup.Spec.ventry (nth es i).vars
            (force (nth es i).item (nth es i).vars.length c (unknowns (nth es i) z)) u + reactions es z' u := by
        unfold reactions
        rw [← sum_add_distrib]
        refine sum_congr rfl fun i hi => ?_
        rw [← ventry_add]
        exact Whole.ventry_congr (fun j hj => by rw [hforce i (mem_range.1 hi) j hj]) u
      have e3 : reactions es z' u = reactions es l u - ∑ i ∈ range es.length, ∑ r ∈ range N,
          (if hir : i < es.length ∧ r < N then m (.inl (⟨i, hir.1⟩, ⟨r, hir.2⟩)) else 0) *
            Sup.Spec.ventry (nth es i).vars (rowOf (nth es i).item r) u := by
        unfold reactions
        rw [← sum_sub_distrib]
        refine sum_congr rfl fun i hi => ?_
        have hi := mem_range.1 hi
        rw [sum_congr rfl fun r _ => (ventry_scale _ _ _ u).symm, Centering.ventry_sum, ← ventry_sub]
        refine Whole.ventry_congr (fun j _ => ?_) u
        by_cases heq : ∃ o, (nth es i).item = .equality o
        · obtain ⟨o, ho⟩ := heq
          rw [reaction_rows (hple i hi) (fun r => unknowns (nth es i) l (o.q + r)) (unknowns (nth es i) l)
            (fun o' ho' r _ => by rw [ho, Item.equality.injEq] at ho'; rw [ho']),
            reaction_rows (hple i hi) (M i) (unknowns (nth es i) z') (hval i hi), ← sum_sub_distrib]
          refine sum_congr rfl fun r _ => ?_
          simp only [hM, ho]
          ring
        · rw [reaction_eq heq, reaction_eq heq, zero_sub, eq_comm, neg_eq_zero]
          refine sum_eq_zero fun r _ => ?_
          have : rowOf (nth es i).item r j = 0 := by
            generalize (nth es i).item = x at heq
            cases x <;> first | exact absurd ⟨_, rfl⟩ heq | rfl
          rw [this, mul_zero]
      have e4 : ∑ k, m k * a k u = ∑ i ∈ range es.length, ∑ r ∈ range N,
          (if hir : i < es.length ∧ r < N then m (.inl (⟨i, hir.1⟩, ⟨r, hir.2⟩)) else 0) *
            Sup.Spec.ventry (nth es i).vars (rowOf (nth es i).item r) u := by
        rw [Fintype.sum_sum_type, Fintype.sum_prod_type]
        have e5 : ∑ v : Fin N, m (.inr v) * a (.inr v) u = 0 := sum_eq_zero fun v _ => by
          simp only [ha]
          rw [if_neg (by rintro ⟨h3, h4⟩; exact hm (h4 ▸ h3)), mul_zero]
        rw [e5, add_zero, sum_range]
        refine sum_congr rfl fun i _ => ?_
        rw [sum_range]
        refine sum_congr rfl fun r _ => ?_
        rw [dif_pos ⟨i.2, r.2⟩]
      rw [e2, e1, e3, e4]
      ring

/-- The unknowns that are not multipliers are unique. -/
theorem centralOn_unique {es : List (Entry ℝ)} {N : Nat} (hs : EqShape es N) (hd : DeterminedOn N es) {g : Nat → ℝ} {c : ℝ}
    {z z' : Nat → ℝ} (h : CentralOn es N g c z) (h' : CentralOn es N g c z') : ∀ u < N, Multiplier es u ∨ z' u = z u := by
  obtain ⟨h1, h2⟩ := (centralOn_iff es N g c z).1 h
  obtain ⟨h3, h4⟩ := (centralOn_iff es N g c z').1 h'
  have hE := equations_sub h4 h2
  have h5 := central_mono hs.soft h1 h3 (by
    have e1 := reactions_orthogonal hs hE z
    have e2 := reactions_orthogonal hs hE z'
    have : ∀ u ∈ range N, (z' u - z u) * (g u - reactions es z' u - (g u - reactions es z u)) =
        (z' u - z u) * reactions es z u - (z' u - z u) * reactions es z' u := fun u _ => by ring
    rw [sum_congr rfl this, sum_sub_distrib, e1, e2, sub_zero])
  intro u hu
  rcases hd (fun u => z' u - z u) (fun e he => by
    obtain ⟨i, hi⟩ := List.getElem?_of_mem he
    have hlt := (List.getElem?_eq_some_iff.1 hi).1
    have hn := Whole.nth_of hi
    subst hn
    have := h5 i (by rwa [List.length_map])
    rwa [nth_soft hlt, soft_insensitive] at this) hE u hu with hm | h0
  · exact Or.inl hm
  · exact Or.inr (sub_eq_zero.1 h0)

theorem interior_distance_eq {es : List (Entry ℝ)} {N : Nat} (hs : EqShape es N) {g : Nat → ℝ} {c : ℝ}
    {y : Nat → ℝ} {X : Nat → Point} {w l z : Nat → ℝ} (h : StrictOn es N g c y X w l) (hz : CentralOn es N g c z)
    {μ ν : ℝ} (hμ : 0 < μ) (hν : 0 < ν)
    (h1 : ∀ i < es.length, DualAbove μ (nth es i).item (X i))
    (h2 : ∀ i < es.length, SlackAbove ν (nth es i).item (nth es i).vars.length c (unknowns (nth es i) y)) :
    distance es c z ≤ (rank es + products es c y X + curvature es N (fun u => w u - y u) / 4) * (1 / μ + 1 / ν) -
      2 * rank es := by
  obtain ⟨g1, g2⟩ := (strictOn_iff es N g c y X w l).1 h
  obtain ⟨g3, g4⟩ := (centralOn_iff es N g c z).1 hz
  have hE := equations_sub g4 g2
  have := interior_distance_on hs.soft g1 g3 (by
    have e1 := reactions_orthogonal hs hE z
    have e2 := reactions_orthogonal hs hE l
    have : ∀ u ∈ range N, (z u - y u) * (g u - reactions es z u - (g u - reactions es l u)) =
        (z u - y u) * reactions es l u - (z u - y u) * reactions es z u := fun u _ => by ring
    rw [sum_congr rfl this, sum_sub_distrib, e1, e2, sub_zero]) hμ hν
    (fun i hi => by
      rw [List.length_map] at hi
      rw [nth_soft hi, soft_dual]
      exact h1 i hi)
    (fun i hi => by
      rw [List.length_map] at hi
      rw [nth_soft hi, soft_slack]
      exact h2 i hi)
  rwa [soft_distance, soft_rank_sum, soft_products, soft_curvature] at this

/-- Interior points of the scaled program. -/
theorem strictOn_scale {es : List (Entry ℝ)} {N : Nat} (hs : EqShape es N) {b : Nat → ℝ} {y : Nat → ℝ}
    {X : Nat → Point} {w l : Nat → ℝ} (h : StrictOn es N b 1 y X w l) {β γ : ℝ} (hβ : 0 < β) (hγ : 0 < γ) :
    StrictOn es N (fun u => β * b u) γ (fun u => γ * y u) (fun i => Point.smul β (X i)) (fun u => β * w u)
      (fun u => β * l u) ∧
    products es γ (fun u => γ * y u) (fun i => Point.smul β (X i)) = β * γ * products es 1 y X := by
  obtain ⟨g1, g2⟩ := (strictOn_iff es N b 1 y X w l).1 h
  obtain ⟨g3, g4⟩ := strict_scale hs.soft g1 hβ hγ
  rw [soft_products, soft_products] at g4
  have g5 := equations_scale (a := γ) g2
  rw [mul_one] at g5
  refine ⟨(strictOn_iff _ _ _ _ _ _ _ _).2 ⟨?_, g5⟩, g4⟩
  have : (fun u => β * b u - reactions es (fun u => β * l u) u) = fun u => β * (b u - reactions es l u) := by
    funext u
    rw [reactions_scale]
    ring
  rw [this]
  exact g3

end Verif.MatrixCentering
