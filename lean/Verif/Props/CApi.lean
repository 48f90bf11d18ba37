import Verif.Lemmas.CApi
import Mathlib.Algebra.Field.Rat

/-!
# Properties of the construction calls (C05, C06, C55)
-/

namespace Verif.CApi

open Spec

variable {R : Type}

/-! ### C05 -/

/-- `Program::AddConstraint(d, variables)` reports success (0) exactly if the constraint was added,
and changes nothing otherwise. -/
theorem C05_addConstraint (p : Program R) (c : Con) (vars : List Int) (hn : ∀ v ∈ vars, 0 ≤ v) :
    ∃ p', (p.addOn c vars = .ok (0, p') ∧ Added p p' c (vars.map Int.toNat) ∧
        p'.listed = p.listed + 1 ∧ vars.Nodup ∧ ∀ v ∈ vars, v < p.mgr.maxVars) ∨
      (p.addOn c vars = .ok (1, p') ∧ p' = p ∧ ¬ (vars.Nodup ∧ ∀ v ∈ vars, v < p.mgr.maxVars)) := by
  by_cases h : CM.Spec.ValidVars p.mgr.maxVars vars
  · obtain ⟨p', h1, h2, h3, -⟩ := addOn_valid p c vars h
    exact ⟨p', .inl ⟨h1, h2, h3, h.1, fun v hv => (h.2 v hv).2⟩⟩
  · exact ⟨p, .inr ⟨addOn_invalid p c vars hn h, rfl,
      fun h' => h ⟨h'.1, fun v hv => ⟨hn v hv, h'.2 v hv⟩⟩⟩⟩

/-- The calls that create a constraint and store its identifier tell the truth, for every handle and
every argument. -/
theorem C05_new_calls (h : Option (Program R)) (idPtr : Bool) :
    (∀ order dim : Int, ∃ r, newLmi h order dim idPtr = .ok r ∧
      Truthful h (.hermitian order.toNat dim.toNat) r) ∧
    (∀ rows, ∃ r, newLinear h rows idPtr = .ok r ∧
      Truthful h (.linear rows (h.elim 0 fun p => p.mgr.maxVars)) r) ∧
    (∀ order : Int, ∃ r, newSoc h order idPtr = .ok r ∧ Truthful h (.soc order.toNat) r) ∧
    (∃ r, newCost h idPtr = .ok r ∧ Truthful h (.cost (h.elim 0 fun p => p.mgr.maxVars)) r) := by
  have href : ∀ c : Con, Truthful h c (⟨1, h, none⟩ : Ret R) := fun c => .inr ⟨rfl, rfl, rfl⟩
  refine ⟨fun order dim => ?_, fun rows => ?_, fun order => ?_, ?_⟩
  · unfold newLmi refused
    cases hc : saferCast h with
    | none =>
      simp only
      split_ifs <;> exact ⟨_, rfl, href _⟩
    | some p =>
      simp only
      split_ifs
      · exact ⟨_, rfl, href _⟩
      · exact ⟨_, rfl, href _⟩
      · exact ⟨_, rfl, href _⟩
      · obtain ⟨p', h1, h2, -⟩ := add_ok p (.hermitian order.toNat dim.toNat)
        refine ⟨_, by rw [h1]; rfl, .inl ⟨rfl, p, p', saferCast_some hc, rfl, h2, ?_⟩⟩
        have := added_count h2
        simp only [Option.some.injEq]
        unfold Program.count at *
        omega
      · exact ⟨_, rfl, href _⟩
  · unfold newLinear refused
    split_ifs
    · exact ⟨_, rfl, href _⟩
    · cases hc : saferCast h with
      | none => exact ⟨_, rfl, href _⟩
      | some p =>
        obtain ⟨p', h1, h2, -⟩ := add_ok p (.linear rows p.mgr.maxVars)
        have hs := saferCast_some hc
        refine ⟨_, by simp only [h1]; rfl, .inl ⟨rfl, p, p', hs, rfl, ?_, ?_⟩⟩
        · rw [hs]
          exact h2
        have := (added_count h2)
        simp only [Option.some.injEq]
        unfold Program.count at *
        omega
  · unfold newSoc refused
    split_ifs
    · exact ⟨_, rfl, href _⟩
    · exact ⟨_, rfl, href _⟩
    · cases hc : saferCast h with
      | none => exact ⟨_, rfl, href _⟩
      | some p =>
        obtain ⟨p', h1, h2, -⟩ := add_ok p (.soc order.toNat)
        refine ⟨_, by simp only [h1]; rfl, .inl ⟨rfl, p, p', saferCast_some hc, rfl, h2, ?_⟩⟩
        have := (added_count h2)
        simp only [Option.some.injEq]
        unfold Program.count at *
        omega
  · unfold newCost refused
    split_ifs
    · exact ⟨_, rfl, href _⟩
    · cases hc : saferCast h with
      | none => exact ⟨_, rfl, href _⟩
      | some p =>
        have hv := CM.validVars_range p.mgr.maxVars
        obtain ⟨p', h1, h2, -⟩ := addOn_valid { p with quadratic := true } (.cost p.mgr.maxVars) _ hv
        have hs := saferCast_some hc
        refine ⟨⟨0, some p', some (p'.count - 1 : Int)⟩, ?_, .inl ⟨rfl, p, p', hs, rfl, ?_, ?_⟩⟩
        · simp only [Program.addQuadraticCost, ne_eq, not_true_eq_false, if_false,
            Program.addQuadraticCostOn, h1, Outcome.bind_ok]
        · rw [map_ofNat_toNat] at h2
          rw [hs]
          exact h2
        have := (added_count h2)
        simp only [Option.some.injEq]
        unfold Program.count at *
        simp only at this
        omega

/-- Three constraints added to a new program with two variables. -/
example : (do
      let r ← newLmi (some (Program.new 2 : Program ℚ)) 3 4 true
      let r ← newLinear r.prog 5 true
      newSoc r.prog 2 true).toOption.map
        (fun r : Ret ℚ => (r.value, r.id, r.prog.map fun p : Program ℚ => p.mgr.eqs)) =
    some ((0 : Int), some (2 : Int), some [(Con.hermitian 3 4, 2), (.linear 5 2, 2), (.soc 2, 2)]) := by
  decide +kernel

/-- Which arguments the calls accept, for a program that was not solved yet: the orders and dimensions of
the algebras for which there is a cone, a place for the identifier, and a number of variables once. -/
theorem C05_accepts (p : Program R) (hp : Fresh p) (idPtr : Bool) :
    (∀ order dim : Int, (∃ r, newLmi (some p) order dim idPtr = .ok r ∧ r.value = 0) ↔
      idPtr = true ∧ 1 ≤ order ∧ (dim = 1 ∨ dim = 2 ∨ dim = 4 ∨ (dim = 8 ∧ order ≤ 3))) ∧
    (∀ order : Int, (∃ r, newSoc (some p) order idPtr = .ok r ∧ r.value = 0) ↔
      idPtr = true ∧ 1 ≤ order) ∧
    (∀ rows, (∃ r, newLinear (some p) rows idPtr = .ok r ∧ r.value = 0) ↔ idPtr = true) ∧
    ((∃ r, newCost (some p) idPtr = .ok r ∧ r.value = 0) ↔ idPtr = true) := by
  have hs : saferCast (some p) = some p := by
    unfold saferCast
    simp [hp.1, hp.2]
  refine ⟨fun order dim => ?_, fun order => ?_, fun rows => ?_, ?_⟩
  · obtain ⟨p', h1, -⟩ := add_ok p (.hermitian order.toNat dim.toNat)
    unfold newLmi refused
    simp only [hs, h1, Outcome.bind_ok]
    split_ifs with c1 c2 c3 c4
    all_goals first
      | (simp; omega)
      | (simp [c2]; done)
      | (simp [Bool.eq_true_of_not_eq_false c2]; omega)
  · obtain ⟨p', h1, -⟩ := add_ok p (.soc order.toNat)
    unfold newSoc refused
    simp only [hs, h1, Outcome.bind_ok]
    split_ifs with c1 c2
    · simp; omega
    · simp [c2]
    · simp [Bool.eq_true_of_not_eq_false c2]; omega
  · obtain ⟨p', h1, -⟩ := add_ok p (.linear rows p.mgr.maxVars)
    unfold newLinear refused
    simp only [hs, h1, Outcome.bind_ok]
    split_ifs with c2
    · simp [c2]
    · simp [Bool.eq_true_of_not_eq_false c2]
  · unfold newCost refused
    simp only [hs]
    obtain ⟨p', h1, -⟩ := addOn_valid { p with quadratic := true } (.cost p.mgr.maxVars)
      ((List.range p.mgr.maxVars).map Int.ofNat) (CM.validVars_range _)
    simp only [Program.addQuadraticCost, Program.addQuadraticCostOn, h1, Outcome.bind_ok, ne_eq,
      not_true_eq_false, if_false]
    split_ifs with c2
    · simp [c2]
    · simp [Bool.eq_true_of_not_eq_false c2]

example : Fresh (Program.new 2 : Program ℚ) := ⟨rfl, rfl⟩

/-- The number of variables can be set once, to a positive number. -/
theorem C05_variables [Zero R] (p : Program R) (hp : Fresh p) (m : Int) :
    ∃ r, setVariables (some p) m = .ok r ∧
      (p.mgr.maxVars = 0 → 1 ≤ m → r.value = 0 ∧ ∃ p', r.prog = some p' ∧ p'.mgr.maxVars = m ∧
        p'.linearCost = List.replicate m.toNat 0 ∧ p'.mgr.eqs = p.mgr.eqs) ∧
      (p.mgr.maxVars ≠ 0 ∨ m < 1 → r.value = 1 ∧ r.prog = some p) := by
  have hs : saferCast (some p) = some p := by
    unfold saferCast
    simp [hp.1, hp.2]
  unfold setVariables refused
  simp only [hs]
  split_ifs with c1 c2
  · exact ⟨_, rfl, fun _ h => by omega, fun _ => ⟨rfl, rfl⟩⟩
  · exact ⟨_, rfl, fun h => absurd h c2, fun _ => ⟨rfl, rfl⟩⟩
  · refine ⟨_, rfl, fun _ _ => ⟨rfl, _, rfl, ?_, rfl, rfl⟩, fun h => absurd h (by omega)⟩
    simp only [Program.setNumberOfVariables, CM.Manager.setNumberOfVariables]
    omega

/-- The identifiers returned by the calls that add dense data on all variables denote the constraint
added. -/
theorem C05_dense_calls (p : Program R) (a b : Nat) :
    (∃ p', addDenseLmi p a b = .ok ⟨p.mgr.eqs.length, some p', none⟩ ∧
      p'.mgr.eqs[p.mgr.eqs.length]? = some (.denseLmi a b, p.mgr.maxVars)) ∧
    (∃ p', addDenseLinear p a b = .ok ⟨p.mgr.eqs.length, some p', none⟩ ∧
      p'.mgr.eqs[p.mgr.eqs.length]? = some (.linear a b, p.mgr.maxVars)) := by
  constructor
  · obtain ⟨p', h1, h2, -⟩ := add_ok p (.denseLmi a b)
    refine ⟨p', by simp only [addDenseLmi, h1, Outcome.bind_ok]; rfl, ?_⟩
    rw [h2.1]
    simp
  · obtain ⟨p', h1, h2, -⟩ := add_ok p (.linear a b)
    refine ⟨p', by simp only [addDenseLinear, h1, Outcome.bind_ok]; rfl, ?_⟩
    rw [h2.1]
    simp

/-- The same for an LMI on a valid list of variables, in a program with less than `2 ^ 31`
variables. -/
theorem C05_sparse_partial (p : Program R) (a : Nat) (vars : List Int) (hv : vars.Nodup)
    (hr : ∀ v ∈ vars, 0 ≤ v ∧ v < p.mgr.maxVars) (hN : p.mgr.maxVars < 2 ^ 31) :
    ∃ p', addSparseLmi p a vars = .ok ⟨p.mgr.eqs.length, some p', none⟩ ∧
      p'.mgr.eqs[p.mgr.eqs.length]? = some (.denseLmi a vars.length, vars.length) ∧
      p'.mgr.cliques = p.mgr.cliques ++ [vars.map Int.toNat] := by
  have e : vars.map toInt = vars := by
    conv_rhs => rw [← List.map_id vars]
    refine List.map_congr_left fun v hv => ?_
    obtain ⟨h1, h2⟩ := hr v hv
    exact toInt_eq h1 (by omega)
  obtain ⟨p', h1, h2, -⟩ := addOn_valid p (.denseLmi a vars.length) vars ⟨hv, hr⟩
  refine ⟨p', by simp only [addSparseLmi, e, h1, Outcome.bind_ok]; rfl, ?_, h2.2⟩
  rw [h2.1]
  simp

example : ([1, 0] : List Int).Nodup ∧ ∀ v ∈ ([1, 0] : List Int), 0 ≤ v ∧ v < 2 := by decide

/-- For an invalid list of variables the call still returns an identifier, of a constraint that does
not exist. -/
theorem C05_sparse_violated (p : Program R) (a : Nat) (vars : List Int)
    (hn : ∀ v ∈ vars, 0 ≤ v ∧ v < 2 ^ 31)
    (hv : ¬ (vars.Nodup ∧ ∀ v ∈ vars, v < p.mgr.maxVars)) :
    addSparseLmi p a vars = .ok ⟨p.mgr.eqs.length, some p, none⟩ ∧
      p.mgr.eqs[p.mgr.eqs.length]? = none := by
  have e : vars.map toInt = vars := by
    conv_rhs => rw [← List.map_id vars]
    exact List.map_congr_left fun v hv => toInt_eq (hn v hv).1 (hn v hv).2
  have h1 := addOn_invalid p (.denseLmi a vars.length) vars (fun v hv => (hn v hv).1)
    (fun h => hv ⟨h.1, fun v hv => (h.2 v hv).2⟩)
  refine ⟨by simp only [addSparseLmi, e, h1, Outcome.bind_ok]; rfl, by simp⟩

/-- The variable list has type `long` and is converted to `int`: the constraint is added on a variable
other than the one named. -/
theorem C05_sparse_truncation_violated :
    (addSparseLmi (Program.new 2 : Program ℚ) 1 [2 ^ 32 + 1]).toOption.map
      (fun r => (r.value, r.prog.map (·.mgr.cliques))) = some (0, some [[1]]) := by
  decide +kernel

/-- A quadratic cost on an invalid list of variables is not added, but success is reported, and the
program counts as one with quadratic costs from then on. -/
theorem C05_quadratic_cost_violated (p : Program R) (order : Nat) (vars : List Int)
    (hn : ∀ v ∈ vars, 0 ≤ v) (hv : ¬ (vars.Nodup ∧ ∀ v ∈ vars, v < p.mgr.maxVars)) :
    p.addQuadraticCostOn order vars = .ok (0, { p with quadratic := true }) := by
  have h1 := addOn_invalid { p with quadratic := true } (.cost order) vars hn
    (fun h => hv ⟨h.1, fun v hv => (h.2 v hv).2⟩)
  simp only [Program.addQuadraticCostOn, h1, Outcome.bind_ok]

/-- On a valid list of variables the cost is added. -/
theorem C05_quadratic_cost_partial (p : Program R) (order : Nat) (vars : List Int)
    (hv : vars.Nodup) (hr : ∀ v ∈ vars, 0 ≤ v ∧ v < p.mgr.maxVars) :
    ∃ p', p.addQuadraticCostOn order vars = .ok (0, p') ∧
      Added p p' (.cost order) (vars.map Int.toNat) ∧ p'.quadratic = true := by
  obtain ⟨p', h1, h2, -, -, -, -, h3, -⟩ :=
    addOn_valid { p with quadratic := true } (.cost order) vars ⟨hv, hr⟩
  exact ⟨p', by simp only [Program.addQuadraticCostOn, h1, Outcome.bind_ok], h2, h3⟩

/-- The same through the C interface, where a matrix with more rows than there are variables may be
passed. -/
theorem C05_c_quadratic_cost_violated :
    (addCost (some (Program.new 1 : Program ℚ)) [0, 1]).toOption.map
      (fun r => (r.value, r.prog.map fun p => (p.count, p.quadratic))) =
    some (0, some (0, true)) := by
  decide +kernel

/-- The call that adds two-sided inequalities never returns an identifier of what it added. -/
theorem C05_inequalities_violated (p : Program R) (ineq eq cols : Nat) :
    ∃ p', addLinearInequalities p ineq eq cols = .ok ⟨-1, some p', none⟩ ∧
      p'.count = p.count + (if 0 < ineq then 1 else 0) + (if 0 < eq then 1 else 0) := by
  have key : ∀ q : Program R, ∃ q', (if 0 < eq then (do
      let r ← q.addEquality eq cols; Outcome.ok r.2) else .ok q) = .ok q' ∧
      q'.count = q.count + (if 0 < eq then 1 else 0) := by
    intro q
    split_ifs
    · refine ⟨_, by simp only [Program.addEquality, mgr_addEq, Outcome.bind_ok]; rfl, ?_⟩
      simp [Program.count, CM.added]
    · exact ⟨q, rfl, rfl⟩
  unfold addLinearInequalities
  by_cases h : 0 < ineq
  · obtain ⟨q, h1, h2, -⟩ := add_ok p (.linear ineq cols)
    obtain ⟨q', h3, h4⟩ := key q
    refine ⟨q', ?_, ?_⟩
    · simp only [h, if_true, h1, Outcome.bind_ok]
      by_cases he : 0 < eq
      · rw [if_pos he] at h3 ⊢
        rw [h3, Outcome.bind_ok]
      · rw [if_neg he] at h3 ⊢
        cases h3
        rfl
    · rw [h4, added_count h2, if_pos h]
  · obtain ⟨q', h3, h4⟩ := key p
    refine ⟨q', ?_, ?_⟩
    · simp only [h, if_false, Outcome.bind_ok]
      by_cases he : 0 < eq
      · rw [if_pos he] at h3 ⊢
        rw [h3, Outcome.bind_ok]
      · rw [if_neg he] at h3 ⊢
        cases h3
        rfl
    · rw [h4, if_neg h]
      rfl

/-- The status of `AddLinearCost` is the same whether or not the cost was added. -/
theorem C05_linear_cost_violated [Add R] (p : Program R) (b : List R) :
    (p.addLinearCost b).1 = 1 ∧ (p.mgr.maxVars ≠ b.length → (p.addLinearCost b).2 = p) := by
  unfold Program.addLinearCost
  split_ifs with h
  · exact ⟨rfl, fun _ => rfl⟩
  · exact ⟨rfl, fun h' => absurd h' h⟩

/-! ### C06 -/

/-- A program that was not solved yet is accepted. -/
theorem C06_fresh_partial (p : Program R) (hp : Fresh p) : saferCast (some p) = some p := by
  simp [saferCast, hp.1, hp.2]

example : Fresh (Program.new 3 : Program ℚ) := ⟨rfl, rfl⟩

/-- After the first solve every checked call of the C interface is refused and changes nothing: a
program can neither be extended nor have a coefficient updated. -/
theorem C06_locked_violated (p : Program R) (hp : Fresh p) (hc : 0 < p.count)
    (hq : p.quadratic = false) (mode : Int) (allowed : Bool) (l : List (Int × Bool)) :
    let q := solves p ((mode, allowed) :: l)
    saferCast (some q) = none ∧
    (∀ order dim idPtr, newLmi (some q) order dim idPtr = .ok ⟨1, some q, none⟩) ∧
    (∀ rows idPtr, newLinear (some q) rows idPtr = .ok ⟨1, some q, none⟩) ∧
    (∀ order idPtr, newSoc (some q) order idPtr = .ok ⟨1, some q, none⟩) ∧
    (∀ idPtr, newCost (some q) idPtr = .ok ⟨1, some q, none⟩) ∧
    (∀ vars, addCost (some q) vars = .ok ⟨1, some q, none⟩) := by
  intro q
  have hm : ∀ (l : List (Int × Bool)) (p : Program R), (solves p l).mgr = p.mgr := by
    intro l
    induction l with
    | nil => exact fun _ => rfl
    | cons x l ih =>
      intro p
      rw [solves, ih]
      unfold Program.solve Program.bind
      split_ifs <;> rfl
  have hq1 : q.initialized = true ∧ q.workspaces = 2 * p.count + 2 := by
    rcases solves_fresh_or ((mode, allowed) :: l) p hp with h | h
    · exfalso
      have e : p.solve mode allowed =
          { p with workspaces := 2 * p.count + 2, initialized := true } := by
        unfold Program.solve Program.bind
        rw [if_neg (not_not.2 (.inl hq)), if_neg hc.ne', if_pos (.inl hp.1)]
      have hi : ∀ (l : List (Int × Bool)) (p : Program R), p.initialized = true →
          (solves p l).initialized = true := by
        intro l
        induction l with
        | nil => exact fun _ h => h
        | cons x l ih =>
          intro p h
          rw [solves]
          refine ih _ ?_
          unfold Program.solve Program.bind
          split_ifs
          all_goals first | exact h | rfl
      have := hi l (p.solve mode allowed) (by rw [e])
      exact absurd h.1 (by change ¬ (solves (p.solve mode allowed) l).initialized = false; rw [this]; simp)
    · exact ⟨h.1, h.2.1⟩
  have hcount : q.count = p.count := by
    unfold Program.count
    rw [hm]
  have h1 : saferCast (some q) = none := by
    unfold saferCast
    simp only [hq1.1, if_true]
    rw [if_pos (by rw [hq1.2, hcount]; omega)]
  refine ⟨h1, fun order dim idPtr => ?_, fun rows idPtr => ?_, fun order idPtr => ?_,
    fun idPtr => ?_, fun vars => ?_⟩
  · unfold newLmi refused
    rw [h1]
    split_ifs <;> rfl
  · unfold newLinear refused
    rw [h1]
    split_ifs <;> rfl
  · unfold newSoc refused
    rw [h1]
    split_ifs <;> rfl
  · unfold newCost refused
    rw [h1]
    split_ifs <;> rfl
  · unfold addCost refused
    rw [h1]

/-- One inequality, one solve. -/
example : let p : Program ℚ := ((Program.new 2).add (.linear 3 2)).toOption.elim (Program.new 0) (·.2)
    Fresh p ∧ 0 < p.count ∧ p.quadratic = false ∧ saferCast (some (p.solve 0 false)) = none := by
  refine ⟨⟨rfl, rfl⟩, by decide, rfl, rfl⟩

/-- The check passes again after as many unchecked additions as there were constraints when the
program was solved: it is not a test of validity. -/
theorem C06_check_counts (p : Program R) (hp : p.initialized = true) (n : Nat)
    (hw : p.workspaces = 2 * n + 2) : saferCast (some p) = some p ↔ p.count = 2 * n := by
  unfold saferCast
  simp only [hp, if_true]
  split_ifs with h
  · exact ⟨fun h' => by simp at h', fun h' => absurd (by omega) h⟩
  · exact ⟨fun _ => by omega, fun _ => rfl⟩

/-! ### C55 -/

/-- A cost vector with one entry for each variable is the one that is minimised. -/
theorem C55_cost_partial [AddGroup R] (p : Program R) (b : List R) (mode : Int) (allowed : Bool)
    (hb : b.length = p.mgr.maxVars) (hl : p.linearCost.length = p.mgr.maxVars) :
    (p.maximize b mode allowed).linearCost = b.map fun x => -x := by
  have hs : ∀ q : Program R, (q.solve mode allowed).linearCost = q.linearCost := by
    intro q
    unfold Program.solve Program.bind
    split_ifs <;> rfl
  unfold Program.maximize
  simp only [hs]
  unfold Program.addLinearCost Program.clearLinearCosts
  rw [if_neg (by simp [hb])]
  simp only
  apply List.ext_getElem
  · simp [hb, hl]
  · intro i h1 h2
    simp

example : (([3, 4] : List ℚ).length = (Program.new 2 : Program ℚ).mgr.maxVars) ∧
    (Program.new 2 : Program ℚ).linearCost.length = 2 ∧
    ((Program.new 2 : Program ℚ).maximize [3, 4] 0 true).linearCost = [-3, -4] := by
  decide +kernel

/-- A cost vector of any other length is dropped without notice, and the program is solved with cost
zero. -/
theorem C55_wrong_length_violated [AddGroup R] (p : Program R) (b : List R) (mode : Int)
    (allowed : Bool) (hb : b.length ≠ p.mgr.maxVars) :
    p.maximize b mode allowed = p.clearLinearCosts.solve mode allowed ∧
      ∀ x ∈ (p.maximize b mode allowed).linearCost, x = 0 := by
  have hs : ∀ q : Program R, (q.solve mode allowed).linearCost = q.linearCost := by
    intro q
    unfold Program.solve Program.bind
    split_ifs <;> rfl
  have e : p.maximize b mode allowed = p.clearLinearCosts.solve mode allowed := by
    unfold Program.maximize
    simp only
    unfold Program.addLinearCost
    rw [if_pos (by simpa [Program.clearLinearCosts] using hb.symm)]
  refine ⟨e, fun x hx => ?_⟩
  rw [e, hs] at hx
  simp only [Program.clearLinearCosts, List.mem_map] at hx
  obtain ⟨_, _, rfl⟩ := hx
  rfl

end Verif.CApi
