import Mathlib.Algebra.BigOperators.Ring.Finset
import Mathlib.Algebra.Order.BigOperators.Ring.Finset
import Verif.Lemmas.Spin
import Verif.Spec.QuadCone

/-!
# Lemmas on second-order and quadratic cones
-/

namespace Verif.Soc

open Finset Spin Spin.Spec SolveLoop.Spec Spec Schur

variable {R : Type} [Field R] [LinearOrder R] [IsStrictOrderedRing R]

theorem dot_form (n : Nat) : IsForm (dot n : (Nat → R) → (Nat → R) → R) where
  symm x y := sum_congr rfl fun i _ => mul_comm _ _
  add x y z := by
    unfold dot
    rw [← sum_add_distrib]
    exact sum_congr rfl fun i _ => add_mul _ _ _
  smul a x z := by
    unfold dot
    rw [mul_sum]
    exact sum_congr rfl fun i _ => mul_assoc _ _ _
  nonneg x := sum_nonneg fun i _ => mul_self_nonneg _

/-- For the standard form, equality is equality of all entries. -/
theorem same_dot (n : Nat) (x y : El R) :
    Same (dot n) x y ↔ x.h = y.h ∧ ∀ i < n, x.t i = y.t i := by
  constructor
  · rintro ⟨h, h'⟩
    refine ⟨h, fun i hi => ?_⟩
    have := h' (fun j => if j = i then 1 else 0)
    simpa [dot, hi] using this
  · rintro ⟨h, h'⟩
    exact ⟨h, fun z => sum_congr rfl fun i hi => by rw [h' i (mem_range.1 hi)]⟩

theorem quadRep_eq (n : Nat) (x y : El R) : quadRep n x y = quad (dot n) x y := by
  rw [quad_eq (dot_form n)]
  unfold quadRep
  simp only
  congr 1
  ring

/-- The combination of the two idempotents takes the given values at the eigenvalues. -/
theorem combine_val {sqrt : R → R} (hs : ∀ x, 0 ≤ x → SqrtAt sqrt x) (n : Nat) (x : El R) {a b : R}
    (hab : (compute sqrt n x).norm = 0 → a = b) :
    Val (dot n) x (compute sqrt n x).norm a b (combine a b (compute sqrt n x)) := by
  have hk := hs _ ((dot_form n).nonneg x.t)
  refine ⟨hk.1, hk.2, ?_, ?_, ?_⟩
  · unfold combine idem0 idem1
    split_ifs <;> ring
  · intro h i
    have hq : (compute sqrt n x).q i = x.t i / (compute sqrt n x).norm := by
      unfold compute at h ⊢
      simp only at h ⊢
      rw [if_pos h]
    unfold combine idem0 idem1
    rw [if_pos h, if_pos h]
    simp only [hq]
    field_simp
    ring
  · intro h
    refine ⟨hab h, ?_⟩
    unfold combine idem0 idem1
    rw [if_neg (by rw [h]; exact lt_irrefl _), if_neg (by rw [h]; exact lt_irrefl _)]
    simp [dot]

theorem norm_le {B : (Nat → R) → (Nat → R) → R} {x : El R} {k : R} (hk : k * k = B x.t x.t)
    (hx : Cone B x) : k ≤ x.h := by
  have := abs_le_of_sq_le_sq (a := k) (b := x.h) (by rw [sq k, hk]; exact hx.2) hx.1
  exact (abs_le.1 this).2

theorem norm_lt {B : (Nat → R) → (Nat → R) → R} {x : El R} {k : R} (hk : k * k = B x.t x.t)
    (hx : Interior B x) : k < x.h := by
  have := abs_lt_of_sq_lt_sq (a := k) (b := x.h) (by rw [sq k, hk]; exact hx.2) hx.1.le
  exact (abs_lt.1 this).2

theorem cone_of_interior {B : (Nat → R) → (Nat → R) → R} {x : El R} (h : Interior B x) : Cone B x :=
  ⟨h.1.le, h.2.le⟩

theorem sqrt_pos {sqrt : R → R} {x : R} (h : SqrtAt sqrt x) (hx : 0 < x) : 0 < sqrt x := by
  rcases h.1.eq_or_lt with h0 | h0
  · have := h.2
    rw [← h0] at this
    simp at this
    linarith
  · exact h0

/-- The square root of an element of the cone. -/
theorem sqrtEl_spec {sqrt : R → R} (hs : ∀ x, 0 ≤ x → SqrtAt sqrt x) (n : Nat) {x : El R}
    (hx : Cone (dot n) x) :
    ∃ z, sqrtEl sqrt n x = .ok z ∧ Cone (dot n) z ∧ Same (dot n) (mul (dot n) z z) x ∧
      (Interior (dot n) x → Interior (dot n) z) := by
  have hk := hs _ ((dot_form n).nonneg x.t)
  have hle := norm_le hk.2 hx
  have h0 : 0 ≤ x.h + sqrt (dot n x.t x.t) := add_nonneg hx.1 hk.1
  have h1 : 0 ≤ x.h - sqrt (dot n x.t x.t) := by linarith
  have hv := combine_val hs n x (a := sqrt (compute sqrt n x).ev0) (b := sqrt (compute sqrt n x).ev1)
    (fun h => by unfold compute at h ⊢; simp only at h ⊢; rw [h, add_zero, sub_zero])
  have s0 := hs _ h0
  have s1 := hs _ h1
  refine ⟨_, ?_, hv.cone (dot_form n) s0.1 s1.1, hv.sq (dot_form n) s0.2 s1.2, fun hi => ?_⟩
  · unfold sqrtEl
    rw [if_neg]
    simp only [compute, lt_min_iff, not_lt, min_lt_iff, not_or]
    exact ⟨h0, h1⟩
  · have hlt := norm_lt hk.2 hi
    exact hv.interior (dot_form n) (sqrt_pos s0 (add_pos_of_pos_of_nonneg hi.1 hk.1))
      (sqrt_pos s1 (sub_pos.2 hlt))

/-- The exponential. -/
theorem expEl_spec {sqrt exp : R → R} (hs : ∀ x, 0 ≤ x → SqrtAt sqrt x) (he : ∀ x, 0 < exp x)
    (n : Nat) (x : El R) :
    IsFun (dot n) exp x (expEl sqrt exp n x) ∧ Interior (dot n) (expEl sqrt exp n x) := by
  have hv := combine_val hs n x (a := exp (compute sqrt n x).ev0) (b := exp (compute sqrt n x).ev1)
    (fun h => by unfold compute at h ⊢; simp only at h ⊢; rw [h, add_zero, sub_zero])
  exact ⟨hv.isFun (dot_form n), hv.interior (dot_form n) (he _) (he _)⟩

theorem max_abs_ite (a b : R) : (if |b| < |a| then |a| else |b|) = max |a| |b| := by
  split_ifs with h
  · rw [max_eq_left h.le]
  · rw [max_eq_right (not_lt.1 h)]

theorem negativeSlack_eq (o : Con R) (ho : Complete o) (k : R) (y : Nat → R) :
    negativeSlack o k o.m y = .ok (smul (-1) (slack o k y)) := by
  unfold negativeSlack
  rw [if_neg (by simp [ho.1, ho.2])]
  unfold ofVec slack smul
  congr 2
  · ring
  · funext i
    ring

theorem quad_neg {B : (Nat → R) → (Nat → R) → R} (hB : IsForm B) (z s : El R) :
    quad B z (smul (-1) s) = smul (-1) (quad B z s) := by
  rw [quad_eq hB, quad_eq hB]
  unfold smul
  simp only [hB.smul_right]
  congr 1
  · ring
  · funext i
    ring

theorem neg_min_max (x : El R) {B : (Nat → R) → (Nat → R) → R} (hB : IsForm B) {a b : R}
    (h : Eig B (smul (-1) x) a b) : Eig B x (-a) (-b) := by
  unfold Eig smul at *
  simp only [hB.smul, hB.smul_right] at h
  refine ⟨by linarith [h.1], ?_⟩
  have := h.2
  linear_combination this

/-- The summary of two eigenvalues. -/
theorem dataOf_pair {a b l u : R} (hl : l = -max a b) (hu : u = -min a b) (k : R) :
    Divergence.Spec.DataOf [-a, -b]
      ({ (⟨u * u + l * l, u + l, l, u, k⟩ : Divergence.Slack R) with rank := 2 }) := by
  have h1 : (u = -a ∧ l = -b ∧ -b ≤ -a) ∨ (u = -b ∧ l = -a ∧ -a ≤ -b) := by
    rcases le_total a b with h | h
    · left
      rw [min_eq_left h] at hu
      rw [max_eq_right h] at hl
      exact ⟨hu, hl, by linarith⟩
    · right
      rw [min_eq_right h] at hu
      rw [max_eq_left h] at hl
      exact ⟨hu, hl, by linarith⟩
  rcases h1 with ⟨rfl, rfl, h⟩ | ⟨rfl, rfl, h⟩
  · refine ⟨?_, ?_, ?_, ?_, ?_, ?_, ?_⟩ <;> simp <;> linarith
  · refine ⟨?_, ?_, ?_, ?_, ?_, ?_, ?_⟩ <;> simp <;> linarith

/-- The system of a cone in terms of a square root of the scaling point. -/
theorem tr_sqrt {B : (Nat → R) → (Nat → R) → R} (hB : IsForm B) {z w : El R}
    (h : Same B (mul B z z) w) (x y : El R) :
    tr B (quad B z x) (quad B z y) = tr B x (quad B w y) := by
  rw [tr_quad hB, quad_quad hB]
  exact tr_congr hB (Same.refl _) (h.quad_congr hB (Same.refl _))

theorem tr_eq (B : (Nat → R) → (Nat → R) → R) (x y : El R) :
    tr B x y = 2 * (x.h * y.h + B x.t y.t) := rfl

theorem tr_head {B : (Nat → R) → (Nat → R) → R} (hB : IsForm B) {z w : El R}
    (h : Same B (mul B z z) w) (c : El R) : 2 * (quad B z c).h = tr B w c := by
  have : tr B one (quad B z c) = 2 * (quad B z c).h := by
    rw [tr_eq, one]
    simp [hB.zero_left]
  rw [← this, ← tr_quad hB, quad_one hB]
  exact tr_congr hB h (Same.refl _)

end Verif.Soc

namespace Verif.QuadCone

open Finset Soc Spin Spin.Spec SolveLoop.Spec Spec Schur

variable {R : Type} [Field R] [LinearOrder R] [IsStrictOrderedRing R]

theorem inner_form_none (n : Nat) : IsForm (inner n (none : Option (Nat → Nat → R))) := dot_form n

/-- The inner product given by a symmetric positive semidefinite matrix. -/
theorem inner_form (n : Nat) {Q : Nat → Nat → R} (hQ : Psd n Q) : IsForm (inner n (some Q)) where
  symm x y := by
    simp only [inner, dot, mulVec, mul_sum]
    rw [sum_comm]
    refine sum_congr rfl fun i hi => sum_congr rfl fun j hj => ?_
    rw [hQ.1 i (mem_range.1 hi) j (mem_range.1 hj)]
    ring
  add x y z := by
    simp only [inner, dot]
    rw [← sum_add_distrib]
    exact sum_congr rfl fun i _ => add_mul _ _ _
  smul a x z := by
    simp only [inner, dot]
    rw [mul_sum]
    exact sum_congr rfl fun i _ => mul_assoc _ _ _
  nonneg x := hQ.2 x

theorem quadRep_eq {B : (Nat → R) → (Nat → R) → R} (hB : IsForm B) (x y : El R) :
    quadRep (B x.t x.t) (B x.t y.t) x y = quad B x y := by
  rw [quad_eq hB]
  rfl

theorem norm_spec {sqrt : R → R} (hs : ∀ x, 0 ≤ x → SqrtAt sqrt x) {n : Nat}
    {Q : Option (Nat → Nat → R)} (hB : IsForm (inner n Q)) (x : Nat → R) :
    0 ≤ norm sqrt n Q x ∧ norm sqrt n Q x * norm sqrt n Q x = inner n Q x x := by
  unfold norm squareRoot
  rw [abs_of_nonneg (hB.nonneg x)]
  exact hs _ (hB.nonneg x)

/-- The square root of an interior point. -/
theorem sqrtEl_spec {sqrt : R → R} (hs : ∀ x, 0 ≤ x → SqrtAt sqrt x) {n : Nat}
    {Q : Option (Nat → Nat → R)} (hB : IsForm (inner n Q)) {x : El R} (hx : Interior (inner n Q) x) :
    Interior (inner n Q) (sqrtEl sqrt (norm sqrt n Q x.t) x) ∧
      Same (inner n Q) (mul (inner n Q) (sqrtEl sqrt (norm sqrt n Q x.t) x)
        (sqrtEl sqrt (norm sqrt n Q x.t) x)) x := by
  obtain ⟨hk, hk2⟩ := norm_spec hs hB x.t
  have hlt := norm_lt hk2 hx
  have h0 : 0 < x.h + norm sqrt n Q x.t := add_pos_of_pos_of_nonneg hx.1 hk
  have h1 : 0 < x.h - norm sqrt n Q x.t := sub_pos.2 hlt
  have s0 := hs _ h0.le
  have s1 := hs _ h1.le
  have hv : Val (inner n Q) x (norm sqrt n Q x.t) (sqrt (x.h + norm sqrt n Q x.t))
      (sqrt (x.h - norm sqrt n Q x.t)) (sqrtEl sqrt (norm sqrt n Q x.t) x) := by
    refine ⟨hk, hk2, ?_, ?_, ?_⟩
    · unfold sqrtEl squareRoot
      simp only [abs_of_pos h0, abs_of_pos h1]
      ring
    · intro h i
      unfold sqrtEl squareRoot
      simp only [abs_of_pos h0, abs_of_pos h1, if_pos h]
      field_simp
    · intro h
      refine ⟨by rw [h, add_zero, sub_zero], ?_⟩
      unfold sqrtEl
      rw [if_neg (by rw [h]; exact lt_irrefl _)]
      simp only
      rw [← hk2, h, zero_mul]
  exact ⟨hv.interior hB (sqrt_pos s0 h0) (sqrt_pos s1 h1), hv.sq hB s0.2 s1.2⟩

/-- The exponential. -/
theorem expEl_spec {sqrt exp : R → R} (hs : ∀ x, 0 ≤ x → SqrtAt sqrt x) (he : ∀ x, 0 < exp x) {n : Nat}
    {Q : Option (Nat → Nat → R)} (hB : IsForm (inner n Q)) (x : El R) :
    IsFun (inner n Q) exp x (expEl exp (norm sqrt n Q x.t) x) ∧
      Interior (inner n Q) (expEl exp (norm sqrt n Q x.t) x) := by
  obtain ⟨hk, hk2⟩ := norm_spec hs hB x.t
  have hv : Val (inner n Q) x (norm sqrt n Q x.t) (exp (x.h + norm sqrt n Q x.t))
      (exp (x.h - norm sqrt n Q x.t)) (expEl exp (norm sqrt n Q x.t) x) := by
    refine ⟨hk, hk2, ?_, ?_, ?_⟩
    · unfold expEl
      ring
    · intro h i
      unfold expEl
      simp only [if_pos h]
      field_simp
    · intro h
      refine ⟨by rw [h, add_zero, sub_zero], ?_⟩
      unfold expEl
      rw [if_neg (by rw [h]; exact lt_irrefl _)]
      simp only
      rw [← hk2, h, zero_mul]
  exact ⟨hv.isFun hB, hv.interior hB (he _) (he _)⟩

theorem negativeSlack_eq (o : Con R) (k : R) (y : Nat → R) :
    negativeSlack o k o.m y = .ok (smul (-1) (QuadCone.Spec.slack o k y)) := by
  unfold negativeSlack
  rw [if_neg (by simp)]
  unfold QuadCone.Spec.slack smul
  congr 2
  · ring
  · funext i
    ring

theorem good_mk (n m : Nat) (Q : Option (Nat → Nat → R)) (A : Nat → Nat → R) (c : Nat → R) :
    Good (mk n m Q A c false) :=
  ⟨fun _ _ _ _ => rfl, fun _ _ _ => rfl⟩

theorem wDotC_eq (o : Con R) (W : El R) : wDotC o W = inner o.n o.Q o.C.t W.t := by
  unfold inner wDotC
  cases o.Q <;> exact (dot_form o.n).symm _ _

/-- The inner product of the epigraph. -/
theorem inner_buildQ (v : Nat) (Qi : Nat → Nat → R) (x y : Nat → R) :
    inner (v + 1) (some (buildQ Qi)) x y =
      x 0 * y 0 + ∑ i ∈ range v, x (i + 1) * ∑ j ∈ range v, Qi i j * y (j + 1) := by
  simp only [inner, dot, mulVec]
  rw [sum_range_succ']
  simp only [sum_range_succ', buildQ, zero_mul, add_zero, one_mul, sum_const_zero, zero_add]
  ring

theorem psd_buildQ {v : Nat} {Qi : Nat → Nat → R} (h : Psd v Qi) : Psd (v + 1) (buildQ Qi) := by
  refine ⟨?_, fun x => ?_⟩
  · intro i hi j hj
    rcases i with _ | i <;> rcases j with _ | j
    · rfl
    · rfl
    · rfl
    · exact h.1 i (by omega) j (by omega)
  · have := inner_buildQ v Qi x x
    simp only [inner, dot, mulVec] at this
    rw [this]
    exact add_nonneg (mul_self_nonneg _) (h.2 fun i => x (i + 1))

theorem buildA_low {v j : Nat} (hj : j < v) (k : Nat) :
    (col (buildA v : Nat → Nat → R) j).h = 0 ∧ (col (buildA v : Nat → Nat → R) j).t 0 = 0 ∧
      (col (buildA v : Nat → Nat → R) j).t (k + 1) = if k = j then 1 else 0 := by
  refine ⟨?_, ?_, ?_⟩
  · simp [col, buildA, hj.ne]
  · simp [col, buildA, hj.ne]
  · simp only [col, buildA]
    rw [if_neg (by omega)]
    simp [hj]

theorem buildA_last (v k : Nat) :
    (col (buildA v : Nat → Nat → R) v).h = -(1 / 2) ∧ (col (buildA v : Nat → Nat → R) v).t 0 = -(1 / 2) ∧
      (col (buildA v : Nat → Nat → R) v).t (k + 1) = 0 := by
  refine ⟨?_, ?_, ?_⟩
  · simp [col, buildA]
  · simp [col, buildA]
  · simp only [col, buildA]
    rw [if_neg (by omega)]
    simp

/-- The epigraph applies the operator of the base class. -/
theorem good_epigraph (v : Nat) (Qi : Nat → Nat → R) (epi : Bool) : Good (epigraph v Qi epi) := by
  refine ⟨fun _ _ _ _ => rfl, fun x i hi => ?_⟩
  cases epi with
  | false => rfl
  | true =>
    have hi' : i < v + 1 := hi
    change evalAtQXEpi (v + 1) (some (buildQ Qi)) x i =
      inner (v + 1) (some (buildQ Qi)) (col (buildA v) i).t x
    rw [inner_buildQ]
    unfold evalAtQXEpi
    simp only [Nat.add_sub_cancel]
    by_cases h : i < v
    · rw [if_pos h, (buildA_low h 0).2.1, zero_mul, zero_add]
      simp only [fun k => (buildA_low (R := R) h k).2.2]
      simp [h, buildQ]
    · have : i = v := by omega
      subst this
      rw [if_neg h, (buildA_last i 0).2.1]
      simp only [fun k => (buildA_last (R := R) i k).2.2]
      simp

end Verif.QuadCone
