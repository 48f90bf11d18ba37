import Mathlib.Analysis.SpecialFunctions.Exp
import Mathlib.Analysis.SpecialFunctions.Sqrt
import Mathlib.Algebra.Field.Rat
import Mathlib.Tactic.NormNum
import Verif.Lemmas.QuadCone

/-!
# Properties of second-order and quadratic cones (C36, C37, C39)
-/

namespace Verif.Soc

open Finset Spin Spin.Spec SolveLoop.Spec Spec Schur

variable {R : Type} [Field R] [LinearOrder R] [IsStrictOrderedRing R]

/-! ### C36 for the second-order cone -/

/-- The square root of an element of the cone lies in the cone, squares back to it, and its quadratic
representation maps the unit to it; it is interior if the element is. -/
theorem C36_sqrt {sqrt : R → R} (hs : ∀ x, 0 ≤ x → SqrtAt sqrt x) (n : Nat) {x : El R}
    (hx : Cone (dot n) x) :
    ∃ z, sqrtEl sqrt n x = .ok z ∧ Cone (dot n) z ∧
      (mul (dot n) z z).h = x.h ∧ (∀ i < n, (mul (dot n) z z).t i = x.t i) ∧
      (quadRep n z one).h = x.h ∧ (∀ i < n, (quadRep n z one).t i = x.t i) ∧
      (Interior (dot n) x → Interior (dot n) z) := by
  obtain ⟨z, h1, h2, h3, h4⟩ := sqrtEl_spec hs n hx
  have := (same_dot n _ _).1 h3
  refine ⟨z, h1, h2, this.1, this.2, ?_, ?_, h4⟩
  · rw [quadRep_eq, quad_one (dot_form n)]
    exact this.1
  · rw [quadRep_eq, quad_one (dot_form n)]
    exact this.2

theorem real_sqrt : ∀ x : ℝ, 0 ≤ x → SqrtAt Real.sqrt x :=
  fun x hx => ⟨Real.sqrt_nonneg x, Real.mul_self_sqrt hx⟩

/-- The hypotheses hold for the real square root and a point of the cone in three dimensions. -/
example : (∀ x : ℝ, 0 ≤ x → SqrtAt Real.sqrt x) ∧
    Interior (dot 2) (⟨5, fun i => if i = 0 then 3 else 1⟩ : El ℝ) := by
  refine ⟨real_sqrt, ?_, ?_⟩ <;> norm_num [dot, sum_range_succ]

/-- The quadratic representation is the one of the Jordan algebra, and that of an interior point maps
the interior to itself. -/
theorem C36_quadRep (n : Nat) (x y : El R) :
    quadRep n x y = quad (dot n) x y ∧
      (Interior (dot n) x → Interior (dot n) y → Interior (dot n) (quadRep n x y)) := by
  refine ⟨quadRep_eq n x y, fun hx hy => ?_⟩
  rw [quadRep_eq]
  exact interior_quad (dot_form n) hx hy

/-- The exponential is the function of that name of the algebra, and lies in the interior. -/
theorem C36_exp {sqrt exp : R → R} (hs : ∀ x, 0 ≤ x → SqrtAt sqrt x) (he : ∀ x, 0 < exp x) (n : Nat)
    (x : El R) :
    IsFun (dot n) exp x (expEl sqrt exp n x) ∧ Interior (dot n) (expEl sqrt exp n x) :=
  expEl_spec hs he n x

example : ∀ x, 0 < Real.exp x := Real.exp_pos

/-- A step: preparing leaves the square root of the scaling point, the direction and its norms; taking
it leaves `Q(w^{1/2}) exp(size d)`, which is interior.  No assertion fails. -/
theorem C36_step {sqrt exp : R → R} (hs : ∀ x, 0 ≤ x → SqrtAt sqrt x) (he : ∀ x, 0 < exp x)
    (o : Con R) (ho : Complete o) (k : R) (y : Nat → R) (size : R) (w : Ws R)
    (hw : Interior (dot o.n) w.W) :
    ∃ w' a b, prepareStep sqrt o k o.m y w = .ok (w', a, b) ∧
      Prepared (dot o.n) w.W (slack o k y) w'.W w'.d a b ∧
      ∃ w'', takeStep sqrt exp o size w' = .ok w'' ∧ Interior (dot o.n) w''.W ∧
        Taken (dot o.n) exp w'.W w'.d size w''.W := by
  have hB := dot_form (R := R) o.n
  obtain ⟨z, hz, -, hzz, hzi⟩ := sqrtEl_spec hs o.n (cone_of_interior hw)
  have hzi := hzi hw
  set d : El R := ⟨(quadRep o.n z (smul (-1) (slack o k y))).h + 1,
    (quadRep o.n z (smul (-1) (slack o k y))).t⟩ with hd
  have hdn := hs _ (hB.nonneg d.t)
  refine ⟨⟨z, d⟩, normInf sqrt o.n d, 2 * (d.h * d.h + dot o.n d.t d.t), ?_, ⟨hzz, hzi, ?_, d.h + sqrt (dot o.n d.t d.t),
    d.h - sqrt (dot o.n d.t d.t), eig_of_norm hdn.2, ?_, ?_⟩, ?_⟩
  · unfold prepareStep
    simp only [negativeSlack_eq o ho, hz, Outcome.bind_ok]
    rfl
  · rw [hd, quadRep_eq, quad_neg hB]
    refine ⟨?_, fun v => ?_⟩
    · simp only [add, one, smul]
      ring
    · simp only [add, one, smul, hB.add, hB.smul, hB.zero_left]
      ring
  · exact max_abs_ite _ _
  · linear_combination (-2) * hdn.2
  · have hd' : (if size ≠ 1 then (⟨d.h * size, fun i => d.t i * size⟩ : El R) else d) =
        smul size d := by
      split_ifs with h
      · unfold smul
        simp only [mul_comm size]
      · rw [not_not.1 h]
        unfold smul
        simp only [one_mul]
    obtain ⟨h1, h2⟩ := expEl_spec hs he o.n (smul size d)
    have h3 := interior_quad hB hzi h2
    have h4 := hs _ (hB.nonneg (quad (dot o.n) z (expEl sqrt exp o.n (smul size d))).t)
    have h5 := norm_lt h4.2 h3
    refine ⟨⟨quad (dot o.n) z (expEl sqrt exp o.n (smul size d)), ⟨d.h, (smul size d).t⟩⟩, ?_, h3, _,
      h1, Same.refl _⟩
    unfold takeStep
    simp only [hd', quadRep_eq]
    rw [if_neg (not_lt.2 h5.le)]

/-- Complete data: two variables, three dimensions. -/
example : Complete (ofMatrices 2 2 (fun i j => (i + j : ℝ)) (fun _ => 1)) := ⟨rfl, rfl⟩

/-- From the identity, the scaling point stays interior under every sequence of steps. -/
theorem C36_interior {sqrt exp : R → R} (hs : ∀ x, 0 ≤ x → SqrtAt sqrt x) (he : ∀ x, 0 < exp x)
    (o : Con R) (ho : Complete o) (l : List (R × (Nat → R) × R)) (w : Ws R) :
    ∃ w', Spec.run sqrt exp o l (setIdentity w) = .ok w' ∧ Interior (dot o.n) w'.W := by
  have key : ∀ (l : List (R × (Nat → R) × R)) (w : Ws R), Interior (dot o.n) w.W →
      ∃ w', Spec.run sqrt exp o l w = .ok w' ∧ Interior (dot o.n) w'.W := by
    intro l
    induction l with
    | nil => exact fun w hw => ⟨w, rfl, hw⟩
    | cons s l ih =>
      intro w hw
      obtain ⟨k, y, size⟩ := s
      obtain ⟨w', a, b, h1, -, w'', h2, h3, -⟩ := C36_step hs he o ho k y size w hw
      obtain ⟨w3, h4, h5⟩ := ih w'' h3
      exact ⟨w3, by simp only [Spec.run, h1, h2, Outcome.bind_ok, h4], h5⟩
  refine key l _ ⟨zero_lt_one, ?_⟩
  simp only [setIdentity, (dot_form o.n).zero_left]
  norm_num

/-- The eigenvalue summary is that of the two eigenvalues of `Q(w^{1/2})(k c - A y)`. -/
theorem C36_slack {sqrt : R → R} (hs : ∀ x, 0 ≤ x → SqrtAt sqrt x) (o : Con R) (ho : Complete o)
    (w : Ws R) (hw : Interior (dot o.n) w.W) (y : Nat → R) (k : R) (p : Divergence.Slack R) :
    ∃ q z a b, slackData sqrt o w o.m y k p = .ok q ∧ q.rank = p.rank ∧
      Same (dot o.n) (mul (dot o.n) z z) w.W ∧ Interior (dot o.n) z ∧
      Eig (dot o.n) (quad (dot o.n) z (slack o k y)) a b ∧
      Divergence.Spec.DataOf [a, b] { q with rank := 2 } := by
  have hB := dot_form (R := R) o.n
  obtain ⟨z, hz, -, hzz, hzi⟩ := sqrtEl_spec hs o.n (cone_of_interior hw)
  set x := quad (dot o.n) z (smul (-1) (slack o k y)) with hx
  have hxn := hs _ (hB.nonneg x.t)
  refine ⟨_, z, -(x.h + sqrt (dot o.n x.t x.t)), -(x.h - sqrt (dot o.n x.t x.t)), ?_, ?_, hzz, hzi hw,
    ?_, dataOf_pair rfl rfl p.rank⟩
  · unfold slackData
    simp only [negativeSlack_eq o ho, hz, Outcome.bind_ok, quadRep_eq]
    rfl
  · rfl
  · refine neg_min_max _ hB ?_
    rw [← quad_neg hB]
    exact eig_of_norm hxn.2

/-! ### C37 for the second-order cone -/

/-- The system of a second-order cone: `2 A' Q(w) A`, `2 A' w`, `2 A' Q(w) c`, `2 w' c`, `2 c' Q(w) c`, written or
added to what was there. -/
theorem C37_schur {sqrt : R → R} (hs : ∀ x, 0 ≤ x → SqrtAt sqrt x) (o : Con R) (ho : Complete o)
    (W : El R) (hW : Cone (dot o.n) W) (s : Sys R) (hr : s.rows = o.m) :
    (∃ t, schur sqrt o W true s = .ok t ∧ t.rows = s.rows ∧
      Contributes (dot o.n) o.m (col o.A) (ofVec o.c) W t.G t.AW t.AQc t.wc t.cQc) ∧
    (∃ t, schur sqrt o W false s = .ok t ∧ t.rows = s.rows ∧
      Contributes (dot o.n) o.m (col o.A) (ofVec o.c) W (fun i j => t.G i j - s.G i j)
        (fun i => t.AW i - s.AW i) (fun i => t.AQc i - s.AQc i) (t.wc - s.wc) (t.cQc - s.cQc)) := by
  have hB := dot_form (R := R) o.n
  obtain ⟨z, hz, -, hzz, -⟩ := sqrtEl_spec hs o.n hW
  have e1 : ∀ x y : El R, 2 * ((quadRep o.n z x).h * (quadRep o.n z y).h +
      dot o.n (quadRep o.n z x).t (quadRep o.n z y).t) = tr (dot o.n) x (quad (dot o.n) W y) := by
    intro x y
    rw [quadRep_eq, quadRep_eq, ← tr_eq]
    exact tr_sqrt hB hzz x y
  have e2 : 2 * (quadRep o.n z (ofVec o.c)).h = tr (dot o.n) W (ofVec o.c) := by
    rw [quadRep_eq]
    exact tr_head hB hzz _
  unfold schur
  simp only [hz, Outcome.bind_ok, ho.1, ho.2, hr, ne_eq, not_true_eq_false, or_self, if_false, if_true,
    Bool.false_eq_true]
  refine ⟨⟨_, rfl, rfl, ?_, ?_, ?_, ?_, ?_⟩, ⟨_, rfl, rfl, ?_, ?_, ?_, ?_, ?_⟩⟩
  · intro i hi j hj
    simp only [setTopLeft, hi, hj, and_self, if_true, e1]
  · intro i hi
    simp only [setTop, hi, if_true, tr_eq]
  · intro i hi
    simp only [setTop, hi, if_true, e1]
  · exact e2
  · exact e1 _ _
  · intro i hi j hj
    simp only [setTopLeft, hi, hj, and_self, if_true, e1, add_sub_cancel_left]
  · intro i hi
    simp only [setTop, hi, if_true, tr_eq, add_sub_cancel_left]
  · intro i hi
    simp only [setTop, hi, if_true, e1, add_sub_cancel_left]
  · rw [← e2]
    simp only [add_sub_cancel_left]
  · rw [← e1]
    simp only [add_sub_cancel_left]

/-- The identity is in the cone. -/
example : Cone (dot 2) (setIdentity (⟨⟨0, fun _ => 0⟩, ⟨0, fun _ => 0⟩⟩ : Ws ℝ)).W := by
  constructor <;> norm_num [setIdentity, dot]

/-- Entries of the system outside of the constraint do not exist: the sizes must be equal. -/
theorem C37_schur_size (sqrt : R → R) (o : Con R) (W : El R) (init : Bool) (s t : Sys R)
    (h : schur sqrt o W init s = .ok t) : s.rows = o.m ∧ Complete o := by
  unfold schur at h
  cases hz : sqrtEl sqrt o.n W with
  | ok z =>
    simp only [hz, Outcome.bind_ok] at h
    split_ifs at h with h1
    all_goals
      simp only [not_or, not_not, ne_eq] at h1
      exact ⟨h1.2.2, h1.1, h1.2.1⟩
  | throws => simp [hz] at h
  | ub => simp [hz] at h
  | diverges => simp [hz] at h

end Verif.Soc

namespace Verif.QuadCone

open Finset Soc Soc.Spec Spin Spin.Spec SolveLoop.Spec Schur

variable {R : Type} [Field R] [LinearOrder R] [IsStrictOrderedRing R]

/-! ### C36 for quadratic cones -/

/-- The form of the cone is symmetric and positive semidefinite if its matrix is, or if there is
none. -/
theorem C36_form (n : Nat) (Q : Option (Nat → Nat → R)) (hQ : ∀ q, Q = some q → Spec.Psd n q) :
    IsForm (inner n Q) := by
  cases Q with
  | none => exact inner_form_none n
  | some q => exact inner_form n (hQ q rfl)

/-- A positive semidefinite matrix that is not definite. -/
example : Spec.Psd 2 (fun i j => if i = 0 ∧ j = 0 then (2 : ℝ) else 0) := by
  refine ⟨fun i _ j _ => by simp only [and_comm], fun x => ?_⟩
  simp [sum_range_succ]
  nlinarith [sq_nonneg (x 0)]

/-- A step: as for the second-order cone.  The square root is `(W₀, z)`, kept in two places. -/
theorem C36_step {sqrt exp : R → R} (hs : ∀ x, 0 ≤ x → SqrtAt sqrt x) (he : ∀ x, 0 < exp x)
    (o : Con R) (hB : IsForm (inner o.n o.Q)) (k : R) (y : Nat → R) (size : R) (w : Ws R)
    (hw : Interior (inner o.n o.Q) w.W) :
    ∃ w' a b, prepareStep sqrt o k o.m y w = .ok (w', a, b) ∧
      Prepared (inner o.n o.Q) w.W (Spec.slack o k y) ⟨w'.W.h, w'.z⟩ w'.d a b ∧
      Interior (inner o.n o.Q) (takeStep sqrt exp o size w').W ∧
      Taken (inner o.n o.Q) exp ⟨w'.W.h, w'.z⟩ w'.d size (takeStep sqrt exp o size w').W := by
  obtain ⟨hzi, hzz⟩ := sqrtEl_spec hs hB hw
  set z := sqrtEl sqrt (norm sqrt o.n o.Q w.W.t) w.W with hz
  set d : El R := ⟨(quad (inner o.n o.Q) z (smul (-1) (Spec.slack o k y))).h + 1,
    (quad (inner o.n o.Q) z (smul (-1) (Spec.slack o k y))).t⟩ with hd
  obtain ⟨hk, hk2⟩ := norm_spec hs hB d.t
  set n := norm sqrt o.n o.Q d.t with hn
  refine ⟨⟨⟨z.h, w.W.t⟩, d, z.t, inner o.n o.Q z.t z.t⟩,
    if |d.h + n| < |d.h - n| then |d.h - n| else |d.h + n|,
    (d.h + n) * (d.h + n) + (d.h - n) * (d.h - n), ?_, ⟨hzz, hzi, ?_, d.h + n, d.h - n,
    eig_of_norm hk2, ?_, ?_⟩, ?_⟩
  · unfold prepareStep
    simp only [negativeSlack_eq, Outcome.bind_ok, ← hz, quadRep_eq hB]
    rfl
  · rw [hd, quad_neg hB]
    refine ⟨?_, fun v => ?_⟩
    · simp only [add, one, smul]
      ring
    · simp only [add, one, smul, hB.add, hB.smul, hB.zero_left]
      ring
  · rw [max_abs_ite, max_comm]
  · ring
  · have hd' : (if size ≠ 1 then (⟨size * d.h, fun i => size * d.t i⟩ : El R) else d) =
        smul size d := by
      split_ifs with h
      · rfl
      · rw [not_not.1 h]
        unfold smul
        simp only [one_mul]
    obtain ⟨h1, h2⟩ := expEl_spec hs he hB (smul size d)
    have e : (takeStep sqrt exp o size ⟨⟨z.h, w.W.t⟩, d, z.t, inner o.n o.Q z.t z.t⟩).W =
        quad (inner o.n o.Q) z (expEl exp (norm sqrt o.n o.Q (smul size d).t) (smul size d)) := by
      unfold takeStep
      simp only [hd']
      exact quadRep_eq hB z _
    rw [e]
    exact ⟨interior_quad hB hzi h2, _, h1, Same.refl _⟩

/-- A constraint with matrix `diag (1, 2)` and an interior point that is not a multiple of the
identity. -/
example : IsForm (inner 2 (some (buildQ fun _ _ => (2 : ℝ)))) ∧
    Interior (inner 2 (some (buildQ fun _ _ => (2 : ℝ)))) ⟨5, fun i => if i = 0 then 4 else 1⟩ := by
  refine ⟨C36_form 2 _ fun q h => ?_, by norm_num, ?_⟩
  · cases h
    exact psd_buildQ (v := 1) ⟨fun _ _ _ _ => rfl, fun x => by simp; nlinarith [sq_nonneg (x 0)]⟩
  · rw [inner_buildQ]
    norm_num

/-- From the identity, the scaling point stays interior under every sequence of steps. -/
theorem C36_interior {sqrt exp : R → R} (hs : ∀ x, 0 ≤ x → SqrtAt sqrt x) (he : ∀ x, 0 < exp x)
    (o : Con R) (hB : IsForm (inner o.n o.Q)) (l : List (R × (Nat → R) × R)) (w : Ws R) :
    ∃ w', Spec.run sqrt exp o l (setIdentity w) = .ok w' ∧ Interior (inner o.n o.Q) w'.W := by
  have key : ∀ (l : List (R × (Nat → R) × R)) (w : Ws R), Interior (inner o.n o.Q) w.W →
      ∃ w', Spec.run sqrt exp o l w = .ok w' ∧ Interior (inner o.n o.Q) w'.W := by
    intro l
    induction l with
    | nil => exact fun w hw => ⟨w, rfl, hw⟩
    | cons s l ih =>
      intro w hw
      obtain ⟨k, y, size⟩ := s
      obtain ⟨w', a, b, h1, -, h2, -⟩ := C36_step hs he o hB k y size w hw
      obtain ⟨w3, h4, h5⟩ := ih _ h2
      exact ⟨w3, by simp only [Spec.run, h1, Outcome.bind_ok, h4], h5⟩
  refine key l _ ⟨zero_lt_one, ?_⟩
  simp only [setIdentity, hB.zero_left]
  norm_num

/-- The eigenvalue summary is that of the two eigenvalues of `Q(w^{1/2})(k c - A y)`. -/
theorem C36_slack {sqrt : R → R} (hs : ∀ x, 0 ≤ x → SqrtAt sqrt x) (o : Con R)
    (hB : IsForm (inner o.n o.Q)) (w : Ws R) (hw : Interior (inner o.n o.Q) w.W) (y : Nat → R) (k : R)
    (p : Divergence.Slack R) :
    ∃ q z a b, slackData sqrt o w o.m y k p = .ok q ∧ q.rank = p.rank ∧
      Same (inner o.n o.Q) (mul (inner o.n o.Q) z z) w.W ∧ Interior (inner o.n o.Q) z ∧
      Eig (inner o.n o.Q) (quad (inner o.n o.Q) z (Spec.slack o k y)) a b ∧
      Divergence.Spec.DataOf [a, b] { q with rank := 2 } := by
  obtain ⟨hzi, hzz⟩ := sqrtEl_spec hs hB hw
  set z := sqrtEl sqrt (norm sqrt o.n o.Q w.W.t) w.W with hz
  set x := quad (inner o.n o.Q) z (smul (-1) (Spec.slack o k y)) with hx
  obtain ⟨-, hxn⟩ := norm_spec hs hB x.t
  refine ⟨_, z, -(x.h + norm sqrt o.n o.Q x.t), -(x.h - norm sqrt o.n o.Q x.t), ?_, ?_, hzz, hzi,
    ?_, dataOf_pair rfl rfl p.rank⟩
  · unfold slackData
    simp only [negativeSlack_eq, Outcome.bind_ok, ← hz, quadRep_eq hB]
    rfl
  · rfl
  · refine neg_min_max _ hB ?_
    rw [← quad_neg hB]
    exact eig_of_norm hxn

/-! ### C37 for quadratic cones -/

/-- The constructors compute the Gram matrix, and `QuadraticEpigraph` overrides the operator with the
same function. -/
theorem C37_good (n m : Nat) (Q : Option (Nat → Nat → R)) (A : Nat → Nat → R) (c : Nat → R) (v : Nat)
    (Qi : Nat → Nat → R) (epi : Bool) :
    Spec.Good (mk n m Q A c false) ∧ Spec.Good (epigraph v Qi epi) :=
  ⟨good_mk n m Q A c, good_epigraph v Qi epi⟩

/-- The system of a quadratic cone when it is written. -/
theorem C37_schur_partial (o : Con R) (ho : Spec.Good o) (hB : IsForm (inner o.n o.Q)) (W : El R)
    (s : Sys R) (hr : s.rows = o.m) :
    ∃ t, schur o W true s = .ok t ∧ t.rows = s.rows ∧
      Contributes (inner o.n o.Q) o.m o.A o.C W t.G t.AW t.AQc t.wc t.cQc := by
  unfold schur
  simp only [hr, ne_eq, not_true_eq_false, if_false, if_true, wDotC_eq]
  refine ⟨_, rfl, rfl, ?_, ?_, ?_, ?_, ?_⟩
  · intro i hi j hj
    simp only [setTopLeft, hi, hj, and_self, if_true, schurG, ho.1 i hi j hj, ho.2 _ i hi, ho.2 _ j hj,
      tr_eq, quad_eq hB, hB.comb_right, hB.symm W.t (o.A j).t]
    ring
  · intro i hi
    simp only [setTop, hi, if_true, ho.2 _ i hi, tr_eq]
    ring
  · intro i hi
    simp only [setTop, hi, if_true, ho.2 _ i hi, tr_eq, quad_eq hB, hB.comb_right,
      hB.symm W.t o.C.t]
    ring
  · simp only [tr_eq, hB.symm W.t o.C.t]
    ring
  · simp only [tr_eq, quad_eq hB, hB.comb_right, hB.symm W.t o.C.t]
    ring

/-- When the system should be added to what was there, twice the old content is kept. -/
theorem C37_accumulate_violated (o : Con R) (ho : Spec.Good o) (hB : IsForm (inner o.n o.Q)) (W : El R)
    (s : Sys R) (hr : s.rows = o.m) :
    ∃ t, schur o W false s = .ok t ∧ t.rows = s.rows ∧
      Contributes (inner o.n o.Q) o.m o.A o.C W (fun i j => t.G i j - 2 * s.G i j)
        (fun i => t.AW i - 2 * s.AW i) (fun i => t.AQc i - 2 * s.AQc i) (t.wc - 2 * s.wc)
        (t.cQc - 2 * s.cQc) := by
  unfold schur
  simp only [hr, ne_eq, not_true_eq_false, if_false, Bool.false_eq_true, wDotC_eq]
  refine ⟨_, rfl, rfl, ?_, ?_, ?_, ?_, ?_⟩
  · intro i hi j hj
    simp only [setTopLeft, hi, hj, and_self, if_true, schurG, ho.1 i hi j hj, ho.2 _ i hi, ho.2 _ j hj,
      tr_eq, quad_eq hB, hB.comb_right, hB.symm W.t (o.A j).t, Bool.false_eq_true, if_false]
    ring
  · intro i hi
    simp only [setTop, hi, if_true, ho.2 _ i hi, tr_eq]
    ring
  · intro i hi
    simp only [setTop, hi, if_true, ho.2 _ i hi, tr_eq, quad_eq hB, hB.comb_right,
      hB.symm W.t o.C.t]
    ring
  · simp only [tr_eq, hB.symm W.t o.C.t]
    ring
  · simp only [tr_eq, quad_eq hB, hB.comb_right, hB.symm W.t o.C.t]
    ring

/-- One variable, at the identity: adding the contribution 2 to 1 gives 4. -/
example : (schur (mk 1 1 none (fun i _ => if i = 0 then 1 else 0) (fun _ => 0) false : Con ℚ)
      ⟨1, fun _ => 0⟩ false ⟨1, fun _ _ => 1, fun _ => 0, fun _ => 0, 0, 0⟩).toOption.map
      (fun t => t.G 0 0) = some 4 ∧
    (schur (mk 1 1 none (fun i _ => if i = 0 then 1 else 0) (fun _ => 0) false : Con ℚ)
      ⟨1, fun _ => 0⟩ true ⟨1, fun _ _ => 1, fun _ => 0, fun _ => 0, 0, 0⟩).toOption.map
      (fun t => t.G 0 0) = some 2 := by
  decide +kernel

/-! ### C39 -/

/-- The point `(x, t)` as vector of variables. -/
def point (v : Nat) (x : Nat → R) (t : R) (j : Nat) : R := if j < v then x j else t

/-- The slack of `(x, t)` lies in the cone exactly if `t ≥ x' Q x / 2`, for both constructors. -/
theorem C39_epigraph {v : Nat} {Qi : Nat → Nat → R} (hQ : Spec.Psd v Qi) (epi : Bool) (x : Nat → R)
    (t : R) :
    Cone (inner (epigraph v Qi epi).n (epigraph v Qi epi).Q)
        (Spec.slack (epigraph v Qi epi) 1 (point v x t)) ↔
      (∑ i ∈ range v, x i * ∑ j ∈ range v, Qi i j * x j) / 2 ≤ t := by
  have hh : (Spec.slack (epigraph v Qi epi) 1 (point v x t)).h = 1 + 1 / 2 * t := by
    change 1 * (ofVec (buildb : Nat → R)).h - ∑ j ∈ range (v + 1), (col (buildA v) j).h * point v x t j = _
    rw [sum_range_succ, (buildA_last v 0).1, sum_eq_zero]
    · simp [ofVec, buildb, point]
    · intro j hj
      rw [(buildA_low (mem_range.1 hj) 0).1, zero_mul]
  have h0 : (Spec.slack (epigraph v Qi epi) 1 (point v x t)).t 0 = -1 + 1 / 2 * t := by
    change 1 * (ofVec (buildb : Nat → R)).t 0 -
      ∑ j ∈ range (v + 1), (col (buildA v) j).t 0 * point v x t j = _
    rw [sum_range_succ, (buildA_last v 0).2.1, sum_eq_zero]
    · simp [ofVec, buildb, point]
    · intro j hj
      rw [(buildA_low (mem_range.1 hj) 0).2.1, zero_mul]
  have h1 : ∀ k < v, (Spec.slack (epigraph v Qi epi) 1 (point v x t)).t (k + 1) = -x k := by
    intro k hk
    change 1 * (ofVec (buildb : Nat → R)).t (k + 1) -
      ∑ j ∈ range (v + 1), (col (buildA v) j).t (k + 1) * point v x t j = _
    rw [sum_range_succ, (buildA_last v k).2.2, sum_eq_single k]
    · rw [(buildA_low hk k).2.2]
      simp [ofVec, buildb, point, hk]
    · intro j hj hne
      rw [(buildA_low (mem_range.1 hj) k).2.2, if_neg (Ne.symm hne), zero_mul]
    · intro h
      exact absurd (mem_range.2 hk) h
  have hB : inner (epigraph v Qi epi).n (epigraph v Qi epi).Q
      (Spec.slack (epigraph v Qi epi) 1 (point v x t)).t
      (Spec.slack (epigraph v Qi epi) 1 (point v x t)).t =
      (-1 + 1 / 2 * t) * (-1 + 1 / 2 * t) + ∑ i ∈ range v, x i * ∑ j ∈ range v, Qi i j * x j := by
    change inner (v + 1) (some (buildQ Qi)) _ _ = _
    rw [inner_buildQ, h0]
    congr 1
    refine sum_congr rfl fun i hi => ?_
    rw [h1 i (mem_range.1 hi)]
    have : ∑ j ∈ range v, Qi i j * (Spec.slack (epigraph v Qi epi) 1 (point v x t)).t (j + 1) =
        -∑ j ∈ range v, Qi i j * x j := by
      rw [← sum_neg_distrib]
      refine sum_congr rfl fun j hj => ?_
      rw [h1 j (mem_range.1 hj)]
      ring
    rw [this]
    ring
  have hpos := hQ.2 x
  unfold Cone
  rw [hB, hh]
  constructor
  · rintro ⟨-, h⟩
    linarith
  · intro h
    exact ⟨by linarith, by linarith⟩

/-- With one variable and `Q = 0` the hypothesis holds. -/
example : Spec.Psd 1 (fun _ _ => (2 : ℚ)) :=
  ⟨fun _ _ _ _ => rfl, fun x => by simp; nlinarith [sq_nonneg (x 0)]⟩

/-- Without positive semidefiniteness it fails: `x' Q x / 2 = -5 = t`, but the head of the slack is
negative. -/
theorem C39_needs_psd :
    ¬ 0 ≤ (Spec.slack (epigraph 1 (fun _ _ => (-10 : ℚ)) false) 1 (point 1 (fun _ => 1) (-5))).h := by
  decide +kernel

end Verif.QuadCone
