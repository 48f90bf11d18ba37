import Mathlib.Algebra.Field.Rat
import Mathlib.LinearAlgebra.Matrix.PosDef
import Verif.Lemmas.DualVariables
import Verif.Spec.Solve

/-!
# C38, C56: dual variables
-/

namespace Verif.Dual

open Finset Spec

variable {R : Type} [Field R] [LinearOrder R]

/-! ## C38: reading dual variables -/

/-- C38, linear inequalities: with an array of the announced size, entry `r` of the result is entry `r` of
the scaling point divided by the scale, and by nothing if the problem was found infeasible. -/
theorem C38_linear (es : List (Entry R)) (i : Nat) (vars : List Nat) (o : Linear.Con R) (w : Linear.Ws R)
    (h : es[i]? = some ⟨vars, .linear o w⟩) (inf : Bool) (scale : R) (xr xc : Int)
    (hx : xr * xc = o.n) :
    getDualSize es i = o.n ∧ ∃ l, getDual es inf scale i xr xc = .ok (some l) ∧ l.length = o.n ∧
      ∀ r < o.n, l[r]? = some (some (if inf then w.W r else w.W r / scale)) := by
  have hs : getDualSize es i = o.n := by
    simp only [getDualSize, find_some h, Item.dualSize]
  refine ⟨hs, _, by
    rw [getDual, if_neg (by rw [hs, hx]; exact fun h => h rfl), find_some h]
    rfl, ?_, fun r hr => ?_⟩
  · cases inf <;> simp
  · cases inf <;> simp [hr]

example : ∃ l, getDual [⟨[0], .linear ⟨2, 1, fun _ _ => 1, fun _ => 1⟩
    ⟨fun r => (r : ℚ) + 1, fun _ => 0, fun _ => 0⟩⟩] false 2 0 1 2 = .ok (some l) ∧ l[1]? = some (some 1) := by
  obtain ⟨-, l, h1, -, h2⟩ := C38_linear (R := ℚ) [⟨[0], .linear ⟨2, 1, fun _ _ => 1, fun _ => 1⟩
    ⟨fun r => (r : ℚ) + 1, fun _ => 0, fun _ => 0⟩⟩] 0 _ _ _ rfl false 2 1 2 rfl
  exact ⟨l, h1, by rw [h2 1 (by decide)]; norm_num⟩

/-- C38, linear matrix inequalities: the scaling point by columns. -/
theorem C38_lmi (es : List (Entry R)) (i : Nat) (vars : List Nat) (n : Nat) (o : Lmi.Con n R)
    (w : Lmi.Ws n R) (h : es[i]? = some ⟨vars, .lmi n o w⟩) (inf : Bool) (scale : R) (xr xc : Int)
    (hx : xr * xc = n * n) :
    getDualSize es i = n * n ∧ ∃ l, getDual es inf scale i xr xc = .ok (some l) ∧ l.length = n * n ∧
      ∀ r c : Fin n, l[(c : Nat) * n + r]? = some (some (if inf then w.W r c else w.W r c / scale)) :=
  getDual_colMajor h rfl rfl inf scale xr xc hx

example : ∃ l, getDual [⟨[0], .lmi 2 ⟨1, fun _ => 1, 1⟩ ⟨!![1, 2; (2 : ℚ), 5], 0⟩⟩] false 5 0 2 2 =
    .ok (some l) ∧ l[3]? = some (some 1) := by
  obtain ⟨-, l, h1, -, h2⟩ := C38_lmi (R := ℚ) [⟨[0], .lmi 2 ⟨1, fun _ => 1, 1⟩
    ⟨!![1, 2; (2 : ℚ), 5], 0⟩⟩] 0 _ _ _ _ rfl false 5 2 2 rfl
  exact ⟨l, h1, (h2 1 1).trans (by simp)⟩

/-- C38, matrix inequalities over the reals, complex numbers and quaternions: after the preparation of
dual variables, or a step, the real part of the scaling point by columns.  For the reals (`d = 1`) this
is all of it. -/
theorem C38_hermitian_partial (es : List (Entry R)) (i : Nat) (vars : List Nat) (d n : Nat) (hd : NeZero d)
    (o : HermLmi.Con d n R) (w w' : HermLmi.Ws d n R)
    (hw : (∃ t e, w' = HermLmi.takeStep t e w) ∨
      ∃ k e ny y, HermLmi.prepareAffine o k e ny y w = .ok w')
    (h : es[i]? = some ⟨vars, .hermitian d n hd o w'⟩) (inf : Bool) (scale : R) (xr xc : Int)
    (hx : xr * xc = n * n) :
    getDualSize es i = n * n ∧ ∃ l, getDual es inf scale i xr xc = .ok (some l) ∧ l.length = n * n ∧
      ∀ r c : Fin n, l[(c : Nat) * n + r]? =
        some (some (if inf then w'.W 0 r c else w'.W 0 r c / scale)) := by
  have hl : w'.dual = .live := by
    rcases hw with ⟨t, e, rfl⟩ | ⟨k, e, ny, y, hp⟩
    · rfl
    · unfold HermLmi.prepareAffine at hp
      cases hs : HermLmi.negativeSlack o k ny y with
      | ok s =>
        simp only [hs, Outcome.bind_ok, Outcome.ok.injEq] at hp
        rw [← hp]
      | throws => rw [hs] at hp; exact absurd hp (by simp [Outcome.bind_throws])
      | ub => rw [hs] at hp; exact absurd hp (by simp [Outcome.bind_ub])
      | diverges => rw [hs] at hp; exact absurd hp (by simp [Outcome.bind_diverges])
  refine getDual_colMajor h rfl ?_ inf scale xr xc hx
  simp only [Item.dual, hl]

example : ∃ (w' : HermLmi.Ws 2 1 ℚ) (l : List (Option ℚ)),
    HermLmi.prepareAffine ⟨[fun _ => 1], some fun _ => 0⟩ 0 0 1 (fun _ => 0) ⟨fun _ => 1, 0, 0, .freed⟩ = .ok w' ∧
    getDual [⟨[0], .hermitian 2 1 ⟨by decide⟩ ⟨[fun _ => 1], some fun _ => 0⟩ w'⟩] true 1 0 1 1 = .ok (some l) ∧
    l[0]? = some (some (w'.W 0 0 0)) := by
  obtain ⟨-, l, h1, -, h2⟩ := C38_hermitian_partial (R := ℚ) [_] 0 [0] 2 1 ⟨by decide⟩
    ⟨[fun _ => 1], some fun _ => 0⟩ ⟨fun _ => 1, 0, 0, .freed⟩ _ (Or.inr ⟨0, 0, 1, fun _ => 0, rfl⟩) rfl true 1 1 1 rfl
  exact ⟨_, l, rfl, h1, h2 0 0⟩

/-- C38, any other index: the announced size is 1 and nothing is written to an array of that size. -/
theorem C38_invalid (es : List (Entry R)) (i : Int) (h : i < 0 ∨ (es.length : Int) ≤ i) (inf : Bool)
    (scale : R) (xr xc : Int) :
    getDualSize es i = 1 ∧
    getDual es inf scale i xr xc = if xr * xc = 1 then .ok none else .ub := by
  have hf : find i 0 es = none := by
    rcases h with h | h
    · exact find_lt es i 0 h
    · have := find_eq es i.toNat 0
      rw [zero_add, Int.toNat_of_nonneg (by omega)] at this
      rw [this, List.getElem?_eq_none (by omega)]
      rfl
  have hs : getDualSize es i = 1 := by simp only [getDualSize, hf]
  refine ⟨hs, ?_⟩
  rw [getDual, hs, hf]
  by_cases h1 : xr * xc = 1
  · rw [if_neg (by rw [h1]; exact fun h => h rfl), if_pos h1]
  · rw [if_pos (by push_cast; exact fun h => h1 h.symm), if_neg h1]

example : getDualSize ([] : List (Entry ℚ)) 0 = 1 := (C38_invalid [] 0 (Or.inr le_rfl) false 1 1 1).1

/-- C38 fails for second-order and quadratic cones: no number of the result was ever written, whatever
the scaling point (F15). -/
theorem C38_soc_violated (es : List (Entry R)) (i : Nat) (vars : List Nat) (n : Nat)
    (h : (∃ o w, o.n = n ∧ es[i]? = some ⟨vars, .soc o w⟩) ∨
      ∃ o w, o.n = n ∧ es[i]? = some ⟨vars, .quad o w⟩) (inf : Bool) (scale : R) (xr xc : Int)
    (hx : xr * xc = n + 1) :
    getDual es inf scale i xr xc = .ok (some (List.replicate (n + 1) none)) := by
  have key : ∀ e : Entry R, es[i]? = some e → e.item.dualSize = n + 1 →
      e.item.dual = .ok (List.replicate (n + 1) none) →
      getDual es inf scale i xr xc = .ok (some (List.replicate (n + 1) none)) := by
    intro e he h1 h2
    have hs : getDualSize es i = n + 1 := by simp only [getDualSize, find_some he, h1]
    rw [getDual, if_neg (by rw [hs, hx]; push_cast; exact fun h => h rfl), find_some he]
    simp only [h2, Outcome.bind_ok]
    cases inf <;> simp
  rcases h with ⟨o, w, rfl, he⟩ | ⟨o, w, rfl, he⟩
  · exact key _ he rfl rfl
  · exact key _ he rfl rfl

example : getDual [⟨[0], .soc (Soc.ofMatrices 1 1 (fun _ _ => 1) fun _ => 1)
    ⟨⟨(2 : ℚ), fun _ => 1⟩, ⟨0, fun _ => 0⟩⟩⟩] false 1 0 2 1 = .ok (some [none, none]) :=
  C38_soc_violated (R := ℚ) _ 0 _ 1 (Or.inl ⟨_, _, rfl, rfl⟩) false 1 2 1 rfl

/-- C38 fails for complex matrices: scaling points that differ in their imaginary part give the same
result (F46). -/
theorem C38_complex_violated : ∃ w w' : HermLmi.Ws 2 2 ℚ, w.W ≠ w'.W ∧
    Hyper.Spec.Hermitian w.W ∧ Hyper.Spec.Hermitian w'.W ∧
    w.dual = .live ∧ w'.dual = .live ∧ ∀ (o : HermLmi.Con 2 2 ℚ) (inf : Bool) (scale : ℚ),
      getDual [⟨[0], .hermitian 2 2 ⟨by decide⟩ o w⟩] inf scale 0 2 2 =
      getDual [⟨[0], .hermitian 2 2 ⟨by decide⟩ o w'⟩] inf scale 0 2 2 := by
  let V : ℚ → HermLmi.HMat 2 2 ℚ := fun a c =>
    if c = 0 then !![2, 0; 0, 2] else !![0, a; -a, 0]
  have hV : ∀ a, Hyper.Spec.Hermitian (V a) := by
    intro a
    unfold Hyper.Spec.Hermitian
    first
    | (intro c i j; fin_cases c <;> fin_cases i <;> fin_cases j <;> simp [V])
    | (constructor <;> intro i j <;> fin_cases i <;> fin_cases j <;> simp [V])
  refine ⟨⟨V 1, 0, 0, .live⟩, ⟨V (-1), 0, 0, .live⟩, ?_, hV 1, hV (-1), rfl, rfl, fun o inf scale => rfl⟩
  intro h
  have := congrFun (congrFun (congrFun h 1) 0) 1
  simp [V] at this
  norm_num at this

/-- The operations of a solve on the workspace of an octonion constraint. -/
inductive OctReach (n : Nat) (o : HermLmi.Con 8 n R) : HermLmi.Ws 8 n R → Prop
  | new (w : HermLmi.Ws 8 n R) (h : w.dual = .memory) : OctReach n o w
  | setIdentity {w} (h : OctReach n o w) : OctReach n o (HermLmi.setIdentity w)
  | prepare {w w'} (k : R) (ny : Nat) (y : Nat → R) (a b : R) (h : OctReach n o w)
      (e : HermLmi.prepareStepOct o k ny y w = .ok (w', a, b)) : OctReach n o w'
  | take {w} (t : R) (h : OctReach n o w) : OctReach n o (HermLmi.takeStepOct t w)

/-- C38 fails for octonions: after any number of initialisations and steps no number of the result was
ever written (F46). -/
theorem C38_octonion_violated (n : Nat) (o : HermLmi.Con 8 n R) (w : HermLmi.Ws 8 n R)
    (h : OctReach n o w) (vars : List Nat) (inf : Bool) (scale : R) :
    getDual [⟨vars, .octonion n o w⟩] inf scale 0 n n =
      .ok (some (List.replicate (n * n) none)) := by
  have hw : w.dual = .memory := by
    induction h with
    | new w h => exact h
    | setIdentity h ih => simp only [HermLmi.setIdentity, ih, if_true]
    | prepare k ny y a b h e ih =>
      unfold HermLmi.prepareStepOct at e
      cases hs : HermLmi.negativeSlack o k ny y with
      | ok s =>
        simp only [hs, Outcome.bind_ok, Outcome.ok.injEq, Prod.mk.injEq] at e
        rw [← e.1]
        exact ih
      | throws => rw [hs] at e; exact absurd e (by simp [Outcome.bind_throws])
      | ub => rw [hs] at e; exact absurd e (by simp [Outcome.bind_ub])
      | diverges => rw [hs] at e; exact absurd e (by simp [Outcome.bind_diverges])
    | take t h ih => simp only [HermLmi.takeStepOct, ih, if_true]
  have hs : getDualSize [(⟨vars, .octonion n o w⟩ : Entry R)] 0 = n * n := rfl
  rw [getDual, if_neg (by rw [hs]; push_cast; exact fun h => h rfl)]
  simp only [find, if_true, Item.dual, hw, Outcome.bind_ok]
  cases inf <;> simp

example : OctReach 1 (⟨[], none⟩ : HermLmi.Con 8 1 ℚ)
    (HermLmi.takeStepOct 1 (HermLmi.setIdentity ⟨0, 0, 0, .memory⟩)) :=
  .take 1 (.setIdentity (.new _ rfl))

/-- C38 fails for equations: there is nothing to read, although they have a multiplier. -/
theorem C38_equality_violated (es : List (Entry R)) (i : Nat) (vars : List Nat) (o : Equality.Con R)
    (h : es[i]? = some ⟨vars, .equality o⟩) (inf : Bool) (scale : R) :
    getDualSize es i = 0 ∧ getDual es inf scale i 0 0 = .ok (some []) := by
  have hs : getDualSize es i = 0 := by simp only [getDualSize, find_some h, Item.dualSize]
  refine ⟨hs, ?_⟩
  rw [getDual, if_neg (by rw [hs]; exact fun h => h rfl), find_some h]
  simp only [Item.dual, Outcome.bind_ok]
  cases inf <;> rfl

example : getDualSize [(⟨[0], .equality ⟨1, 1, 1, fun _ _ => 1, fun _ => 1, fun _ => 5⟩⟩ : Entry ℚ)] 0 = 0 :=
  (C38_equality_violated _ 0 _ _ rfl true 1).1

/-- C38 fails before the first step of a second solve: the result is read from memory that was
returned (F46). -/
theorem C38_freed_violated (d n : Nat) (hd : NeZero d) (o : HermLmi.Con d n R) (w : HermLmi.Ws d n R)
    (t e : R) (vars : List Nat) (inf : Bool) (scale : R) :
    getDual [⟨vars, .hermitian d n hd o (HermLmi.setIdentity (HermLmi.takeStep t e w))⟩] inf scale 0 n n =
      .ub := by
  have hs : getDualSize [(⟨vars, .hermitian d n hd o
    (HermLmi.setIdentity (HermLmi.takeStep t e w))⟩ : Entry R)] 0 = n * n := rfl
  rw [getDual, if_neg (by rw [hs]; push_cast; exact fun h => h rfl)]
  rfl

/-! ## C56: preparing dual variables -/

section Prepare

/-- C56, the dual equation: with linear inequalities, matrix inequalities over the reals, complex numbers
and quaternions, and equations, let `y` solve the linear system assembled from the constraints, with the
right-hand side `k b` minus the assembled `AW`.  Then the preparation succeeds, and the images of the
new dual variables add up to `k b` at every unknown, multipliers aside.  Partial: second-order cones,
octonions and quadratic costs are excluded, for which this fails. -/
theorem C56_feasible_partial [IsStrictOrderedRing R] (sqrt exp : R → R) (t : R) (N : Nat) (y kb : Nat → R)
    (es : List (Entry R)) (he : ∀ e ∈ es, Good e N) (s₀ s : Nat → Schur.Sys R)
    (h0 : ∀ (i : Nat) (e : Entry R), es[i]? = some e → (s₀ i).rows = e.vars.length)
    (hs : ∀ (i : Nat) (e : Entry R), es[i]? = some e → e.item.schur sqrt (s₀ i) = .ok (s i))
    (hy : ∀ u < N, ∑ v ∈ range N, Sup.Spec.total (es.map Entry.vars) (fun i => (s i).G) u v * y v =
      kb u - ((List.range es.length).map fun i =>
        Sup.Spec.ventry ((es.map Entry.vars).getD i []) (s i).AW u).sum) :
    ∃ es', prepareDual sqrt exp t N y es = .ok es' ∧ ∀ u < N, Primal es u → dualSum es' u = kb u := by
  obtain ⟨es', h1, h2⟩ := prepareDual_sum sqrt exp t N y es he s₀ s h0 hs
  refine ⟨es', h1, fun u hu hp => ?_⟩
  rw [h2 u hp, hy u hu]
  ring

/-- An empty system with two rows. -/
def sys0 (r : Nat) : Schur.Sys ℚ := ⟨r, fun _ _ => 0, fun _ => 0, fun _ => 0, 0, 0⟩

/-- `x ≥ 0` (as `1 - x ≥ 0` would be: coefficient 1) with scaling point 1, and the equation `x = 3` with its
multiplier as unknown 1. -/
def exEs : List (Entry ℚ) :=
  [⟨[0], .linear ⟨1, 1, fun _ _ => 1, fun _ => 1⟩ ⟨fun _ => 1, fun _ => 0, fun _ => 0⟩⟩,
   ⟨[0, 1], .equality ⟨1, 1, 1, fun _ _ => 1, fun _ => 3, fun _ => 0⟩⟩]

/-- The value of an outcome. -/
def val (x : Outcome (Schur.Sys ℚ)) : Schur.Sys ℚ :=
  match x with
  | .ok s => s
  | _ => sys0 0

example : ∃ es', prepareDual id id 1 2 (fun v => if v = 1 then 1 else 0) exEs = .ok es' ∧
    dualSum es' 0 = 2 := by
  have h := C56_feasible_partial (R := ℚ) id id 1 2 (fun v => if v = 1 then 1 else 0)
    (fun u => if u = 0 then 2 else 0) exEs ?_ (fun i => sys0 (i + 1))
    (fun i => val (((exEs[i]?).map Entry.item).elim .ub fun x => x.schur id (sys0 (i + 1)))) ?_ ?_ ?_
  · obtain ⟨es', h1, h2⟩ := h
    refine ⟨es', h1, h2 0 (by decide) ?_⟩
    intro e he
    simp only [exEs, List.mem_cons, List.not_mem_nil, or_false] at he
    rcases he with rfl | rfl
    · trivial
    · exact Or.inl (by decide)
  · intro e he
    simp only [exEs, List.mem_cons, List.not_mem_nil, or_false] at he
    rcases he with rfl | rfl
    · exact ⟨by decide, by decide, rfl⟩
    · exact ⟨by decide, by decide, rfl, rfl⟩
  · intro i e h
    match i, h with
    | 0, h => simp only [exEs, List.getElem?_cons_zero, Option.some.injEq] at h; subst h; rfl
    | 1, h => simp only [exEs, List.getElem?_cons_succ, List.getElem?_cons_zero, Option.some.injEq] at h
              subst h; rfl
  · intro i e h
    match i, h with
    | 0, h => simp only [exEs, List.getElem?_cons_zero, Option.some.injEq] at h; subst h; rfl
    | 1, h => simp only [exEs, List.getElem?_cons_succ, List.getElem?_cons_zero, Option.some.injEq] at h
              subst h; rfl
  · decide +kernel

/-- C56, the cone, linear inequalities: where the scaling point is positive, the new dual variable is
nonnegative exactly if the scaled step is at least -1. -/
theorem C56_linear_cone_partial [IsStrictOrderedRing R] (sqrt exp : R → R) (t : R) (o : Linear.Con R)
    (w : Linear.Ws R) (y : Nat → R) :
    ∃ w', (Item.linear o w).prepareDual sqrt exp t o.m y = .ok (.linear o w') ∧
      ∀ r < o.n, 0 < w.W r → (0 ≤ w'.W r ↔ -1 ≤ w.W r * ∑ j ∈ range o.m, o.A r j * y j) := by
  refine ⟨_, by
    simp only [Item.prepareDual, Linear.prepareStep, if_true, Linear.negativeSlack, lt_irrefl, if_false]
    rfl, ?_⟩
  intro r hr hw
  simp only [Linear.takeStep, if_true, Linear.affineUpdate, mul_zero, sub_zero]
  constructor
  · intro h
    by_contra hc
    nlinarith [mul_pos hw hw, not_le.1 hc]
  · intro h
    nlinarith [mul_le_mul_of_nonneg_left h hw.le]

example : ∃ w', (Item.linear ⟨1, 1, fun _ _ => (1 : ℚ), fun _ => 1⟩ ⟨fun _ => 2, fun _ => 0, fun _ => 0⟩).prepareDual
    id id 1 1 (fun _ => 1 / 3) = .ok (.linear ⟨1, 1, fun _ _ => 1, fun _ => 1⟩ w') ∧ 0 ≤ w'.W 0 := by
  obtain ⟨w', h1, h2⟩ := C56_linear_cone_partial (R := ℚ) id id 1 ⟨1, 1, fun _ _ => 1, fun _ => 1⟩
    ⟨fun _ => 2, fun _ => 0, fun _ => 0⟩ fun _ => 1 / 3
  exact ⟨w', h1, (h2 0 (by decide) (by norm_num)).2 (by norm_num)⟩

/-- C56, the cone, matrix inequalities over the reals: with a positive definite scaling point `W` and the
step `S`, the new dual variable is positive semidefinite exactly if `W⁻¹ + S` is. -/
theorem C56_lmi_cone_partial (sqrt exp : ℝ → ℝ) (t : ℝ) (n : Nat) (o : Lmi.Con n ℝ)
    (w : Lmi.Ws n ℝ) (hW : w.W.PosDef) (y : Nat → ℝ) :
    ∃ w', (Item.lmi n o w).prepareDual sqrt exp t o.m y = .ok (.lmi n o w') ∧
      (w'.W.PosSemidef ↔ (w.W⁻¹ + ∑ j ∈ range o.m, y j • o.A j).PosSemidef) := by
  refine ⟨_, by
    simp only [Item.prepareDual, Lmi.prepareAffine, Lmi.negativeSlack, lt_irrefl, if_false]
    rfl, ?_⟩
  have hu : IsUnit w.W := hW.isUnit
  simp only [Lmi.affineUpdate, if_true, zero_smul, sub_zero]
  rw [← Matrix.IsUnit.posSemidef_star_right_conjugate_iff hu (x := w.W⁻¹ + _)]
  have hs : star w.W = w.W := hW.isHermitian
  rw [hs, mul_add, add_mul, Matrix.mul_nonsing_inv _ ((Matrix.isUnit_iff_isUnit_det _).1 hu), one_mul]

example : ∃ w', (Item.lmi 2 ⟨1, fun _ => 1, 1⟩ ⟨1, 0⟩).prepareDual id id (1 : ℝ) 1 (fun _ => 3) =
    .ok (.lmi 2 ⟨1, fun _ => 1, 1⟩ w') ∧ w'.W.PosSemidef := by
  obtain ⟨w', h1, h2⟩ := C56_lmi_cone_partial id id 1 2 ⟨1, fun _ => 1, 1⟩ ⟨1, 0⟩ Matrix.PosDef.one fun _ => 3
  refine ⟨w', h1, h2.2 ?_⟩
  simp only [inv_one, Finset.sum_range_one]
  exact Matrix.PosSemidef.one.add (Matrix.PosSemidef.one.smul (by norm_num))

/-- C56 fails, the cone: the solution of the system may lead out of the nonnegative orthant. -/
theorem C56_linear_violated : ∃ (o : Linear.Con ℚ) (w : Linear.Ws ℚ) (s : Schur.Sys ℚ) (y kb : ℚ),
    0 < w.W 0 ∧ (Item.linear o w).schur id (sys0 1) = .ok s ∧ s.G 0 0 * y = kb - s.AW 0 ∧
    ∃ w', (Item.linear o w).prepareDual id id 1 1 (fun _ => y) = .ok (.linear o w') ∧ w'.W 0 < 0 :=
  ⟨⟨1, 1, fun _ _ => 1, fun _ => 1⟩, ⟨fun _ => 1, fun _ => 0, fun _ => 0⟩, _, -2, -1, by decide +kernel,
    rfl, by decide +kernel, _, rfl, by decide +kernel⟩

/-- Square roots of a few squares. -/
def rootOf (x : ℚ) : ℚ := if x = 16 then 4 else if x = 9 then 3 else if x = 4 then 2 else if x = 1 then 1 else 0

/-- C56 fails for second-order cones: the dual equation holds before the preparation, the system has the
solution zero, and the dual equation does not hold afterwards (F39). -/
theorem C56_soc_violated : ∃ (o : Soc.Con ℚ) (w : Soc.Ws ℚ) (s : Schur.Sys ℚ) (kb : ℚ),
    (Item.soc o w).schur rootOf (sys0 1) = .ok s ∧ s.G 0 0 * 0 = kb - s.AW 0 ∧
    adjoint (.soc o w) 0 = kb ∧
    ∃ x', (Item.soc o w).prepareDual rootOf id 1 1 (fun _ => 0) = .ok x' ∧ adjoint x' 0 ≠ kb := by
  let o : Soc.Con ℚ := Soc.ofMatrices 1 1 (fun r _ => if r = 0 then 1 else 0) fun _ => 1
  let w : Soc.Ws ℚ := ⟨⟨4, fun _ => 0⟩, ⟨0, fun _ => 0⟩⟩
  obtain ⟨s, h1, h2⟩ := of_okAnd (x := (Item.soc o w).schur rootOf (sys0 1))
    (P := fun s => s.G 0 0 * 0 = 8 - s.AW 0) (by decide +kernel)
  exact ⟨o, w, s, 8, h1, h2, by decide +kernel, of_okAnd (by decide +kernel)⟩

/-- C56 fails for quadratic cones: the preparation turns a scaling point inside the cone into a point
outside, with the step zero (F39). -/
theorem C56_quad_violated : ∃ (o : QuadCone.Con ℚ) (w : QuadCone.Ws ℚ),
    o.n = 1 ∧ o.Q = none ∧ |w.W.t 0| < w.W.h ∧
    ∃ w', (Item.quad o w).prepareDual rootOf id 1 1 (fun _ => 0) = .ok (.quad o w') ∧
      w'.W.h < |w'.W.t 0| :=
  ⟨⟨1, 1, none, fun _ => ⟨1, fun _ => 0⟩, ⟨1, fun _ => 0⟩, fun _ _ => 0, false⟩,
    ⟨⟨5, fun _ => 4⟩, ⟨0, fun _ => 0⟩, fun _ => 0, 0⟩, rfl, rfl, by decide +kernel, _, rfl,
    by decide +kernel⟩

/-- The square roots used in the witnesses. -/
example : rootOf 16 ^ 2 = 16 ∧ rootOf 9 ^ 2 = 9 ∧ rootOf 4 ^ 2 = 4 ∧ rootOf 1 ^ 2 = 1 ∧ rootOf 0 ^ 2 = 0 := by
  decide +kernel

/-- C56 fails for octonions: the preparation leaves the dual variable as it is, whatever the solution of
the system (F46). -/
theorem C56_octonion_violated (sqrt exp : R → R) (t : R) (n : Nat) (o : HermLmi.Con 8 n R)
    (w : HermLmi.Ws 8 n R) (ny : Nat) (y : Nat → R) (x' : Item R)
    (h : (Item.octonion n o w).prepareDual sqrt exp t ny y = .ok x') (j : Nat) :
    adjoint x' j = adjoint (.octonion n o w) j := by
  simp only [Item.prepareDual, HermLmi.prepareStepOct] at h
  cases hs : HermLmi.negativeSlack o 0 ny y with
  | ok s =>
    simp only [hs, Outcome.bind_ok, Outcome.ok.injEq] at h
    rw [← h]
    rfl
  | throws => rw [hs] at h; exact absurd h (by simp [Outcome.bind_throws])
  | ub => rw [hs] at h; exact absurd h (by simp [Outcome.bind_ub])
  | diverges => rw [hs] at h; exact absurd h (by simp [Outcome.bind_diverges])

/-- C56 fails with quadratic costs: `A'W + Q x = b` holds before the preparation at the current point
`x = 1`, but the system contains `Q` although the step of `x` is not taken, and afterwards it does not
(F51). -/
theorem C56_cost_violated : ∃ (o : Linear.Con ℚ) (w : Linear.Ws ℚ) (Q : Nat → Nat → ℚ)
    (s q : Schur.Sys ℚ) (x y kb : ℚ),
    (Item.linear o w).schur id (sys0 1) = .ok s ∧ (Item.cost 1 Q).schur id (sys0 1) = .ok q ∧
    (s.G 0 0 + q.G 0 0) * y = kb - (s.AW 0 + q.AW 0) ∧
    adjoint (.linear o w) 0 + Q 0 0 * x = kb ∧
    ∃ es', prepareDual id id 1 1 (fun _ => y) [⟨[0], .linear o w⟩, ⟨[0], .cost 1 Q⟩] = .ok es' ∧
      dualSum es' 0 + Q 0 0 * x ≠ kb :=
  ⟨⟨1, 1, fun _ _ => 1, fun _ => 2⟩, ⟨fun _ => 1, fun _ => 0, fun _ => 0⟩, fun _ _ => 1, _, _, 1, 1 / 2, 2,
    rfl, rfl, by decide +kernel, by decide +kernel, _, rfl, by decide +kernel⟩

end Prepare

end Verif.Dual
