import Verif.Spec.Updates
import Verif.Spec.Assembler
import Verif.Lemmas.Updates
import Verif.Model.Equality
import Mathlib.Algebra.Field.Rat
import Mathlib.Tactic.FinCases

/-!
# Properties of coefficient updates (C43, C44, C63)
-/

namespace Verif.Updates

open Hyper HermLmi.Spec Spec

variable {R : Type} [Field R] [DecidableEq R] {d n : Nat}

/-! ### C43 -/

/-- An accepted update of a matrix writes the entry and its mirror image and nothing else. -/
theorem C43_operator (o o' : HermLmi.Con d n R) (val : R) (var r c dim : Int)
    (h : hermitianOperator o val var r c dim = .ok (0, o')) :
    o'.affine = o.affine ∧ ∀ (v : Nat) (k : Fin d) (i j : Fin n), opCoeff o' v k i j =
      if (v : Int) = var ∧ (k : Int) = dim ∧ (i : Int) = r ∧ (j : Int) = c then val
      else if (v : Int) = var ∧ (k : Int) = dim ∧ (i : Int) = c ∧ (j : Int) = r then
        (if dim = 0 then val else -val)
      else opCoeff o v k i j := by
  obtain ⟨hrej, h0, rfl⟩ := hermitianOperator_ok h
  refine ⟨rfl, fun v k i j => ?_⟩
  refine (opCoeff_set o h0.1 v k i j (f := fun M => write M dim.toNat r.toNat c.toNat val)).trans ?_
  by_cases hv : (v : Int) = var
  · rw [if_pos hv]
    refine (write_apply hrej h0.2 k i j).trans ?_
    simp only [hv, true_and]
  · simp only [hv, false_and, if_false]

/-- An accepted update of a new quaternion matrix inequality. -/
example : ∃ o', hermitianOperator (HermLmi.newCon 4 2 ℚ) 7 2 1 0 3 = .ok (0, o') ∧
    o'.mats.length = 3 := by
  refine ⟨_, by simp [hermitianOperator, hermitianRejects]; rfl, ?_⟩
  simp [HermLmi.newCon]

/-- Likewise for the affine term. -/
theorem C43_affine (o o' : HermLmi.Con d n R) (val : R) (r c dim : Int)
    (h : hermitianAffine o val r c dim = .ok (0, o')) :
    o'.mats = o.mats ∧ ∀ (k : Fin d) (i j : Fin n), affCoeff o' k i j =
      if (k : Int) = dim ∧ (i : Int) = r ∧ (j : Int) = c then val
      else if (k : Int) = dim ∧ (i : Int) = c ∧ (j : Int) = r then (if dim = 0 then val else -val)
      else affCoeff o k i j := by
  obtain ⟨hrej, h0, rfl⟩ := hermitianAffine_ok h
  refine ⟨rfl, fun k i j => ?_⟩
  have : affCoeff o k i j = o.affine.getD (Hyper.zero d) k i j := by
    unfold affCoeff
    cases o.affine <;> rfl
  rw [this]
  exact write_apply hrej h0 k i j

/-- An accepted update. -/
example : ∃ o', hermitianAffine (HermLmi.newCon 4 2 ℚ) 7 1 0 3 = .ok (0, o') :=
  ⟨_, by simp [hermitianAffine, hermitianRejects]; rfl⟩

/-- An accepted update of a linear inequality writes one entry. -/
theorem C43_linear (o o' : Linear.Con R) (val : R) (var r c dim : Int)
    (h : linearOperator o val var r c dim = .ok (0, o')) :
    o'.n = o.n ∧ o'.m = o.m ∧ o'.c = o.c ∧
      ∀ i j : Nat, o'.A i j = if (i : Int) = r ∧ (j : Int) = var then val else o.A i j := by
  unfold linearOperator at h
  split_ifs at h with h1 h2 h3 h4 h5 <;>
    simp only [Outcome.ok.injEq, Prod.mk.injEq, one_ne_zero, false_and, true_and, reduceCtorEq] at h
  subst h
  refine ⟨rfl, rfl, rfl, fun i j => ?_⟩
  simp only [setEntry]
  refine if_congr ?_ rfl rfl
  omega

/-- Likewise for its affine term. -/
theorem C43_linear_affine (o o' : Linear.Con R) (val : R) (r c dim : Int)
    (h : linearAffine o val r c dim = .ok (0, o')) :
    o'.n = o.n ∧ o'.m = o.m ∧ o'.A = o.A ∧
      ∀ i : Nat, o'.c i = if (i : Int) = r then val else o.c i := by
  unfold linearAffine at h
  split_ifs at h with h1 h2 h3 h4 <;>
    simp only [Outcome.ok.injEq, Prod.mk.injEq, one_ne_zero, false_and, true_and, reduceCtorEq] at h
  subst h
  refine ⟨rfl, rfl, rfl, fun i => ?_⟩
  refine if_congr ?_ rfl rfl
  omega

/-- Accepted updates of a linear inequality. -/
example : (∃ o', linearOperator (⟨2, 3, fun _ _ => 0, fun _ => 0⟩ : Linear.Con ℚ) 7 2 1 0 0 = .ok (0, o')) ∧
    ∃ o', linearAffine (⟨2, 3, fun _ _ => 0, fun _ => 0⟩ : Linear.Con ℚ) 7 1 0 0 = .ok (0, o') :=
  ⟨⟨_, rfl⟩, ⟨_, rfl⟩⟩

/-- An accepted update of a second-order cone writes one coefficient. -/
theorem C43_soc (o o' : Soc.Con R) (val : R) (var r c dim : Int)
    (h : socOperator o val var r c dim = .ok (0, o')) :
    o'.n = o.n ∧ o'.order = o.order ∧ o'.rowsC = o.rowsC ∧ o'.c = o.c ∧
      ∀ i j : Nat, socCoeff o' i j = if (i : Int) = r ∧ (j : Int) = var then val else socCoeff o i j := by
  unfold socOperator at h
  cases ho : o.order with
  | none =>
    simp only [ho] at h
    split_ifs at h <;>
      simp only [Outcome.ok.injEq, Prod.mk.injEq, one_ne_zero, false_and, reduceCtorEq] at h
  | some n =>
    simp only [ho] at h
    by_cases h1 : dim ≠ 0
    · simp [h1] at h
    by_cases h2 : c ≠ 0
    · simp [h1, h2] at h
    by_cases h3 : ¬ r ≤ n
    · simp [h1, h2, h3] at h
    by_cases h4 : ¬ (0 ≤ var ∧ 0 ≤ r)
    · simp only [h1, h2, h3, h4, if_false, if_true, not_false_eq_true, Outcome.ok.injEq,
        Prod.mk.injEq, one_ne_zero, false_and] at h
    rw [if_neg h1, if_neg h2, if_neg h3, if_neg h4] at h
    rw [not_not] at h4
    by_cases h5 : (o.m : Int) ≤ var
    · simp only [h5, if_true] at h
      split_ifs at h with h6
      simp only [Outcome.ok.injEq, Prod.mk.injEq, true_and] at h
      subst h
      refine ⟨rfl, rfl, rfl, rfl, fun i j => ?_⟩
      simp only [socCoeff, setEntry]
      by_cases hij : i = r.toNat ∧ j = var.toNat
      · have e : (i : Int) = r ∧ (j : Int) = var := by omega
        have : j < var.toNat + 1 := by omega
        rw [if_pos this, if_pos hij, if_pos e]
      · have e : ¬ ((i : Int) = r ∧ (j : Int) = var) := by omega
        simp only [hij, e, if_false]
        by_cases hj : j < o.m
        · have : j < var.toNat + 1 := by omega
          simp [hj, this]
        · simp [hj]
    · simp only [h5, if_false] at h
      split_ifs at h with h6
      simp only [Outcome.ok.injEq, Prod.mk.injEq, true_and] at h
      subst h
      refine ⟨rfl, ho, rfl, rfl, fun i j => ?_⟩
      simp only [socCoeff, setEntry]
      by_cases hij : i = r.toNat ∧ j = var.toNat
      · have e : (i : Int) = r ∧ (j : Int) = var := by omega
        have : j < o.m := by omega
        rw [if_pos this, if_pos hij, if_pos e]
      · have e : ¬ ((i : Int) = r ∧ (j : Int) = var) := by omega
        simp only [hij, e, if_false]

/-- Likewise for its affine term. -/
theorem C43_soc_affine (o o' : Soc.Con R) (val : R) (r c dim : Int)
    (h : socAffine o val r c dim = .ok (0, o')) :
    o'.n = o.n ∧ o'.order = o.order ∧ o'.m = o.m ∧ o'.A = o.A ∧
      ∀ i : Nat, socAff o' i = if (i : Int) = r then val else socAff o i := by
  unfold socAffine at h
  cases ho : o.order with
  | none =>
    simp only [ho] at h
    split_ifs at h <;>
      simp only [Outcome.ok.injEq, Prod.mk.injEq, one_ne_zero, false_and, reduceCtorEq] at h
  | some n =>
    simp only [ho] at h
    by_cases h1 : dim ≠ 0
    · simp [h1] at h
    by_cases h2 : c ≠ 0
    · simp [h1, h2] at h
    by_cases h3 : ¬ r ≤ n
    · simp [h1, h2, h3] at h
    by_cases h4 : ¬ 0 ≤ r
    · simp only [h1, h2, h3, h4, if_false, if_true, not_false_eq_true, Outcome.ok.injEq,
        Prod.mk.injEq, one_ne_zero, false_and] at h
    rw [if_neg h1, if_neg h2, if_neg h3, if_neg h4] at h
    by_cases h5 : o.rowsC = 0
    · simp only [h5, if_true] at h
      split_ifs at h with h6
      simp only [Outcome.ok.injEq, Prod.mk.injEq, true_and] at h
      subst h
      refine ⟨rfl, rfl, rfl, rfl, fun i => ?_⟩
      simp only [socAff, h5]
      by_cases hi : i = r.toNat
      · have e : (i : Int) = r := by omega
        have : i < n + 1 := by omega
        simp [e, this]
        omega
      · have e : ¬ (i : Int) = r := by omega
        simp [hi, e]
    · simp only [h5, if_false] at h
      split_ifs at h with h6
      simp only [Outcome.ok.injEq, Prod.mk.injEq, true_and] at h
      subst h
      refine ⟨rfl, ho, rfl, rfl, fun i => ?_⟩
      simp only [socAff]
      by_cases hi : i = r.toNat
      · have e : (i : Int) = r := by omega
        have : i < o.rowsC := by omega
        simp [e, this]
        omega
      · have e : ¬ (i : Int) = r := by omega
        simp [hi, e]

/-- Accepted updates of a new second-order cone. -/
example : (∃ o', socOperator (Soc.ofOrder 2 : Soc.Con ℚ) 7 3 2 0 0 = .ok (0, o') ∧ o'.m = 4) ∧
    ∃ o', socAffine (Soc.ofOrder 2 : Soc.Con ℚ) 7 2 0 0 = .ok (0, o') :=
  ⟨⟨_, rfl, rfl⟩, ⟨_, rfl⟩⟩

/-- An accepted call changes exactly the constraint with the given number, as that kind of constraint
does; the status is 0 or 1, and with status 1 nothing changes. -/
theorem C43_program (p p' : List (Any R)) (i : Int) (val : R) (var r c dim : Int) (s : Int) :
    (cOperator p i val var r c dim = .ok (s, p') →
      (s = 1 ∧ p' = p) ∨ (s = 0 ∧ ∃ l a a' q, p = l ++ a :: q ∧ p' = l ++ a' :: q ∧
        (l.length : Int) = i ∧ anyOperator a val var r c dim = .ok (0, a'))) ∧
    (cAffine p i val r c dim = .ok (s, p') →
      (s = 1 ∧ p' = p) ∨ (s = 0 ∧ ∃ l a a' q, p = l ++ a :: q ∧ p' = l ++ a' :: q ∧
        (l.length : Int) = i ∧ anyAffine a val r c dim = .ok (0, a'))) := by
  constructor
  · intro h
    unfold cOperator at h
    by_cases h1 : ¬ i < p.length
    · rw [if_pos h1] at h
      simp only [Outcome.ok.injEq, Prod.mk.injEq] at h
      exact .inl ⟨h.1.symm, h.2.symm⟩
    · rw [if_neg h1] at h
      obtain h' | ⟨h0, l, a, a', q, e1, e2, e3, e4⟩ :=
        dispatch_ok (fun a s a' h => anyOperator_status h) h
      · exact .inl h'
      · exact .inr ⟨h0, l, a, a', q, e1, e2, by omega, e4⟩
  · intro h
    unfold cAffine at h
    by_cases h1 : ¬ i < p.length
    · rw [if_pos h1] at h
      simp only [Outcome.ok.injEq, Prod.mk.injEq] at h
      exact .inl ⟨h.1.symm, h.2.symm⟩
    · rw [if_neg h1] at h
      obtain h' | ⟨h0, l, a, a', q, e1, e2, e3, e4⟩ :=
        dispatch_ok (fun a s a' h => anyAffine_status h) h
      · exact .inl h'
      · exact .inr ⟨h0, l, a, a', q, e1, e2, by omega, e4⟩

/-- After any sequence of calls that return, accepted or not, all matrices are Hermitian. -/
theorem C43_hermitian (calls : List (Call R)) : ∀ (p p' : List (Any R)), AllHermitian p →
    runAll p calls = .ok p' → AllHermitian p' := by
  induction calls with
  | nil =>
    intro p p' hp h
    simp only [runAll, Outcome.ok.injEq] at h
    exact h ▸ hp
  | cons c l ih =>
    intro p p' hp h
    rw [runAll] at h
    cases hc : c.run p with
    | throws => simp [hc] at h
    | ub => simp [hc] at h
    | diverges => simp [hc] at h
    | ok q =>
      simp only [hc, Outcome.bind_ok] at h
      refine ih q.2 p' ?_ h
      exact run_hermitian hp hc

/-- Several updates of a new complex matrix inequality, one of them refused. -/
example : ((runAll (R := ℚ) [.hermitian 2 2 (HermLmi.newCon 2 2 ℚ)]
    [.operator 0 5 1 0 1 1, .operator 0 3 1 1 1 1, .affine 0 2 1 1 0]).toOption.map fun p =>
      p.map fun a => match a with
        | .hermitian 2 2 o => (o.mats.map fun A => [A 1 0 1, A 1 1 0, A 1 1 1, A 0 0 1],
            (o.affine.map fun C => [C 0 1 1, C 0 0 0]))
        | _ => ([], none)) =
    some [([[0, 0, 0, 0], [5, -5, 0, 0]], some [2, 0])] := by
  decide +kernel

/-- New constraints are Hermitian. -/
example : AllHermitian (R := ℚ) [.hermitian 2 2 (HermLmi.newCon 2 2 ℚ), .other] := by
  intro d n o ho
  simp only [List.mem_cons, Any.hermitian.injEq, reduceCtorEq, List.not_mem_nil, or_false] at ho
  obtain ⟨rfl, rfl, h⟩ := ho
  rw [eq_of_heq h]
  exact ⟨by simp [HermLmi.newCon], by simp [HermLmi.newCon]⟩

/-! ### C44 -/

/-- With nonnegative indices and enough columns, the call returns, and succeeds exactly if the indices
name a coefficient of a constraint.  (Missing: negative indices and variables beyond the columns, for
which see below.) -/
theorem C44_operator_partial (p : List (Any R)) (i : Int) (val : R) (var r c dim : Int) (hv : 0 ≤ var)
    (hr : 0 ≤ r) (hc : 0 ≤ c) (hd : 0 ≤ dim) (hp : Addressable p var) :
    ∃ s p', cOperator p i val var r c dim = .ok (s, p') ∧ (s = 0 ∨ s = 1) ∧
      (s = 0 ↔ ∃ a, 0 ≤ i ∧ p[i.toNat]? = some a ∧ Inside a val var r c dim) :=
  program_table i fun a ha => anyOperator_table a val var r c dim hv hr hc hd
    (fun o e => hp.1 o (e ▸ ha)) fun o e => hp.2 o (e ▸ ha)

/-- Likewise for affine terms and for quadratic costs, whose call is that of affine terms. -/
theorem C44_affine_partial (p : List (Any R)) (i : Int) (val : R) (r c dim : Int)
    (hr : 0 ≤ r) (hc : 0 ≤ c) (hd : 0 ≤ dim) (hp : ∀ o, Any.soc o ∈ p → SocOk o) :
    (∃ s p', cAffine p i val r c dim = .ok (s, p') ∧ (s = 0 ∨ s = 1) ∧
      (s = 0 ↔ ∃ a, 0 ≤ i ∧ p[i.toNat]? = some a ∧ InsideAffine a val r c dim)) ∧
    ∃ s p', cCost p i val r c = .ok (s, p') ∧ (s = 0 ∨ s = 1) ∧
      (s = 0 ↔ ∃ a, 0 ≤ i ∧ p[i.toNat]? = some a ∧ InsideAffine a val r c 0) :=
  ⟨program_table i fun a ha => anyAffine_table a val r c dim hr hc hd fun o e => hp o (e ▸ ha),
    program_table i fun a ha => anyAffine_table a val r c 0 hr hc le_rfl fun o e => hp o (e ▸ ha)⟩

/-- New second-order cones and accepted updates meet the hypotheses. -/
example : Addressable (R := ℚ) [.linear ⟨2, 3, fun _ _ => 0, fun _ => 0⟩, .soc (Soc.ofOrder 2)] 2 := by
  refine ⟨fun o ho => ?_, fun o ho => ?_⟩
  · simp only [List.mem_cons, Any.linear.injEq, reduceCtorEq, List.not_mem_nil, or_false] at ho
    subst ho
    decide
  · simp only [List.mem_cons, Any.soc.injEq, reduceCtorEq, List.not_mem_nil, or_false, false_or] at ho
    subst ho
    exact ⟨rfl, .inl rfl, .inl rfl⟩

/-- **C44 is violated** (finding F18): a negative row of a matrix inequality is not refused, and the
access is undefined; a negative variable or component ends in an exception. -/
theorem C44_hermitian_violated (o : HermLmi.Con d n R) (val : R) (hn : 0 < n) (hd : 0 < d) :
    cOperator [.hermitian d n o] 0 val 0 (-1) 0 0 = .ub ∧
      cOperator [.hermitian d n o] 0 val (-1) 0 0 0 = .throws ∧
      cOperator [.hermitian d n o] 0 val 0 0 0 (-1) = .throws ∧
      cAffine [.hermitian d n o] 0 val 0 (-1) 0 = .ub ∧
      cAffine [.hermitian d n o] 0 val 0 0 (-1) = .throws := by
  have k : ∀ r c dim : Int, r ≤ 0 → c ≤ 0 → dim ≤ 0 → hermitianRejects d n val r c dim = false := by
    intro r c dim h1 h2 h3
    rw [← Bool.not_eq_true, rejects_iff, not_not]
    omega
  refine ⟨?_, ?_, ?_, ?_, ?_⟩ <;>
    simp [cOperator, cAffine, dispatch, anyOperator, anyAffine, hermitianOperator, hermitianAffine, k]

/-- **C44 is violated** (finding F18): a variable beyond the columns of a linear inequality. -/
theorem C44_linear_violated (o : Linear.Con R) (val : R) (hn : 0 < o.n) :
    cOperator [.linear o] 0 val o.m 0 0 0 = .ub := by
  have : ¬ o.n = 0 := by omega
  simp [cOperator, dispatch, anyOperator, linearOperator, this]

/-- **C44 is violated** (finding F18): any update of a second-order cone made from matrices reads an
uninitialised order. -/
theorem C44_soc_violated (k m : Nat) (A : Nat → Nat → R) (b : Nat → R) (val : R) (var r : Int) :
    cOperator [.soc (Soc.ofMatrices k m A b)] 0 val var r 0 0 = .ub ∧
      cAffine [.soc (Soc.ofMatrices k m A b)] 0 val r 0 0 = .ub := by
  constructor <;>
    simp [cOperator, cAffine, dispatch, anyOperator, anyAffine, socOperator, socAffine, Soc.ofMatrices]

/-- **C44 is violated** (finding F18): a negative row of a quadratic cost. -/
theorem C44_cost_violated (k : Nat) (Q : Nat → Nat → R) (val : R) (hk : 0 < k) :
    cCost [.cost k Q] 0 val (-1) 0 = .ub := by
  have : (-1 : Int) < k := by omega
  simp [cCost, dispatch, anyAffine, costAffine, this, hk]

/-- **C44 is violated** (finding F18): the variable is not compared with the number of variables.  A
new complex matrix inequality in a program with two variables accepts a coefficient of variable 5, and
then writes outside of the linear system of size two. -/
theorem C44_variable_violated : ∃ o' : HermLmi.Con 2 1 ℚ,
    cOperator [.hermitian 2 1 (HermLmi.newCon 2 1 ℚ)] 0 1 5 0 0 0 =
      .ok (0, [.hermitian 2 1 o']) ∧
    ∀ (W : HermLmi.HMat 2 1 ℚ) (init : Bool) (s : Schur.Sys ℚ), s.rows = 2 →
      HermLmi.schur o' W init s = .ub := by
  refine ⟨_, by simp [cOperator, dispatch, anyOperator, hermitianOperator, hermitianRejects]; rfl, ?_⟩
  intro W init s hs
  unfold HermLmi.schur
  refine if_pos ?_
  simp only [List.length_set, List.length_append, List.length_replicate, HermLmi.newCon, hs]
  decide

/-- **C44 is violated** (finding F50): the call for quadratic costs accepts the number of a linear
inequality and changes its affine term. -/
theorem C44_cost_kind_violated (o : Linear.Con R) (val : R) (hn : 0 < o.n) :
    cCost [.linear o] 0 val 0 0 =
      .ok (0, [.linear { o with c := fun i => if i = 0 then val else o.c i }]) := by
  have : ¬ o.n = 0 := by omega
  simp [cCost, dispatch, anyAffine, linearAffine, this]

/-- **C44 is violated** (finding F99): the refusal of the components 3 to 7 of an octonion matrix
(`/repo/conex/hermitian_psd.cc` 257-262 and 294-299) never takes place, as it compares the type of the
constraint with the type of its numbers.  Every such component of an entry off the diagonal is
accepted by both calls, and the coefficient and its mirror image are written. -/
theorem C44_octonion_violated (o : HermLmi.Con 8 n R) (val : R) (r c : Fin n) (hrc : r ≠ c)
    (k : Fin 8) (hk : 3 ≤ k.1) :
    (∃ o' : HermLmi.Con 8 n R,
      cAffine [.hermitian 8 n o] 0 val r.1 c.1 k.1 = .ok (0, [.hermitian 8 n o']) ∧
        ∃ C, o'.affine = some C ∧ C k r c = val ∧ C k c r = -val) ∧
      ∃ o' : HermLmi.Con 8 n R,
        cOperator [.hermitian 8 n o] 0 val 0 r.1 c.1 k.1 = .ok (0, [.hermitian 8 n o']) ∧
          ∃ C, o'.mats[0]? = some C ∧ C k r c = val ∧ C k c r = -val := by
  have hv : r.1 ≠ c.1 := fun h => hrc (Fin.ext h)
  have hr := r.2
  have hc := c.2
  have h8 := k.2
  have k0 : hermitianRejects 8 n val (r.1 : Int) (c.1 : Int) (k.1 : Int) = false := by
    rw [← Bool.not_eq_true, rejects_iff, not_not]
    omega
  have w : ∀ M : HermLmi.HMat 8 n R, write M k.1 r.1 c.1 val k r c = val ∧
      write M k.1 r.1 c.1 val k c r = -val := by
    intro M
    have hk0 : k.1 ≠ 0 := by omega
    constructor
    · simp [write, hv]
    · simp [write, hk0]
  have n0 : ¬ ((k.1 : Int) < 0) := by omega
  have n1 : ¬ ((r.1 : Int) < 0 ∨ (c.1 : Int) < 0) := by omega
  refine ⟨⟨{ o with affine := some (write (o.affine.getD (Hyper.zero 8)) k.1 r.1 c.1 val) }, ?_,
    _, rfl, w _⟩, ?_⟩
  · simp [cAffine, dispatch, anyAffine, hermitianAffine, k0, if_neg n0, if_neg n1]
  · have hl : 0 < (o.mats ++ List.replicate ((0 : Int) + 1 - o.mats.length).toNat
        (Hyper.zero 8 : HermLmi.HMat 8 n R)).length := by
      rw [List.length_append, List.length_replicate]
      omega
    refine ⟨{ o with mats := (o.mats ++ List.replicate ((0 : Int) + 1 - o.mats.length).toNat
      (Hyper.zero 8)).set 0 (write ((o.mats ++ List.replicate ((0 : Int) + 1 - o.mats.length).toNat
        (Hyper.zero 8)).getD 0 (Hyper.zero 8)) k.1 r.1 c.1 val) }, ?_,
      write ((o.mats ++ List.replicate ((0 : Int) + 1 - o.mats.length).toNat
        (Hyper.zero 8)).getD 0 (Hyper.zero 8)) k.1 r.1 c.1 val, ?_, w _⟩
    · simp [cOperator, dispatch, anyOperator, hermitianOperator, k0, if_neg n0, if_neg n1]
    · exact List.getElem?_set_self hl

example : (0 : Fin 3) ≠ 2 ∧ 3 ≤ (5 : Fin 8).1 := by decide

/-! ### C63 -/

/-- An accepted update of entry `(r, c)` on or below the diagonal of the matrix of a quadratic cost on
the unknowns `L` sets both entries of the linear system of the unknowns `r` and `c` of `L`, and no
others.  (Missing: entries above the
diagonal, for which see `C63_violated`.) -/
theorem C63_lower_partial (k : Nat) (Q Q' : Nat → Nat → R) (val : R) (r c : Nat) (hrc : c ≤ r)
    (hr : r < k) (s s' : Schur.Sys R) (h : costAffine k Q val r c 0 = .ok (0, Q'))
    (hs : Equality.costSchur k Q' true s = .ok s') (L : List Nat) (hL : L.Nodup) (hk : L.length = k)
    (u v : Nat) (hu : u < k) (hv : v < k) :
    Sup.Spec.entry L s'.G (L.getD u 0) (L.getD v 0) =
      if (u = r ∧ v = c) ∨ (u = c ∧ v = r) then val else Q (max u v) (min u v) := by
  unfold Equality.costSchur at hs
  by_cases h1 : s.rows < k
  · simp [h1] at hs
  rw [if_neg h1, if_pos rfl] at hs
  simp only [Outcome.ok.injEq] at hs
  subst hs
  unfold costAffine at h
  have e1 : (r : Int) < k ∧ (c : Int) < k := by omega
  have e2 : ¬ ((r : Int) < 0 ∨ (c : Int) < 0) := by omega
  rw [if_neg (by simp), if_neg (not_not.2 e1), if_neg e2] at h
  simp only [Outcome.ok.injEq, Prod.mk.injEq, true_and] at h
  subst h
  have hidx : ∀ w, w < k → L.getD w 0 ∈ L ∧ L.idxOf (L.getD w 0) = w := by
    intro w hw
    have hw : w < L.length := by omega
    rw [List.getD_eq_getElem?_getD, List.getElem?_eq_getElem hw, Option.getD_some]
    exact ⟨List.getElem_mem hw, hL.idxOf_getElem w hw⟩
  have h3 : max u v < k := by omega
  have h4 : min u v < k := by omega
  simp only [Sup.Spec.entry, hidx u hu, hidx v hv, and_self, if_true,
    Schur.setTopLeft, h3, h4, setEntry, Int.toNat_natCast]
  refine if_congr ?_ rfl rfl
  omega

/-- A cost of two variables. -/
example : costAffine (R := ℚ) 2 (fun _ _ => 0) 3 (1 : Nat) (0 : Nat) 0 =
    .ok (0, setEntry (fun _ _ => 0) 1 0 3) := by
  simp [costAffine]

/-- **C63 is violated** (finding F49): an accepted update above the diagonal never reaches the linear
system. -/
theorem C63_violated (k : Nat) (Q Q' : Nat → Nat → R) (val : R) (r c : Nat) (hrc : r < c)
    (hc : c < k) (s s₁ s₂ : Schur.Sys R) (h : costAffine k Q val r c 0 = .ok (0, Q'))
    (hs₁ : Equality.costSchur k Q true s = .ok s₁) (hs₂ : Equality.costSchur k Q' true s = .ok s₂)
    (L : List Nat) (u v : Nat) : Sup.Spec.entry L s₂.G u v = Sup.Spec.entry L s₁.G u v := by
  unfold Equality.costSchur at hs₁ hs₂
  by_cases h1 : s.rows < k
  · simp [h1] at hs₁
  rw [if_neg h1, if_pos rfl] at hs₁ hs₂
  simp only [Outcome.ok.injEq] at hs₁ hs₂
  subst hs₁ hs₂
  unfold costAffine at h
  have e1 : (r : Int) < k ∧ (c : Int) < k := by omega
  have e2 : ¬ ((r : Int) < 0 ∨ (c : Int) < 0) := by omega
  rw [if_neg (by simp), if_neg (not_not.2 e1), if_neg e2] at h
  simp only [Outcome.ok.injEq, Prod.mk.injEq, true_and] at h
  subst h
  unfold Sup.Spec.entry
  split_ifs with hm
  · simp only [Schur.setTopLeft, setEntry, Int.toNat_natCast]
    split_ifs with h2 h3
    · omega
    · rfl
    · rfl
  · rfl

/-- The update is accepted, and the systems are defined. -/
example : costAffine (R := ℚ) 2 (fun _ _ => 0) 3 (0 : Nat) (1 : Nat) 0 =
    .ok (0, setEntry (fun _ _ => 0) 0 1 3) ∧
    ∃ s', Equality.costSchur 2 (setEntry (fun _ _ => (0 : ℚ)) 0 1 3) true
      ⟨2, fun _ _ => 0, fun _ => 0, fun _ => 0, 0, 0⟩ = .ok s' ∧ s'.G 0 1 = 3 := by
  refine ⟨by simp [costAffine], _, rfl, ?_⟩
  decide +kernel

end Verif.Updates
