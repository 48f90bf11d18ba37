import Verif.Lemmas.PythonWrapper
import Mathlib.Algebra.Field.Rat

/-!
# Properties of the Python class (C64)
-/

namespace Verif.Py

open CApi Spec

variable {R : Type}

/-- A program made by `AddLinearInequality` (two rows or more), `NewLinearMatrixInequality`,
`AddDenseLinearMatrixInequality` and `AddSparseLinearMatrixInequality`, in any number and order, with
arguments that fit: all calls succeed, and `GetDualVariables` returns one matrix for each constraint, read
from that constraint and of its shape; `self.m` is the number of variables.  The other calls are excluded,
see the violations below. -/
theorem C64_served_partial [Zero R] (N : Nat) (h1 : 1 ≤ N) (hN : N < 2 ^ 31) (l : List Call)
    (hl : ∀ c ∈ l, c.Fits N) :
    ∃ s s' : Conex R, Conex.new (N : Int) = .ok s ∧ runs s l = .ok s' ∧
      Served s' (l.map Call.con) ∧ s'.m = N ∧ s'.prog.mgr.maxVars = N ∧
      s'.prog.mgr.eqs.map Prod.fst = l.map Call.con := by
  obtain ⟨s, hs, hi⟩ := new_inv (R := R) N h1
  obtain ⟨s', hr, hi'⟩ := Inv.runs hN l hl hi
  exact ⟨s, s', hs, hr, by simpa using hi'.served, hi'.m, hi'.vars, by simpa using hi'.eqs⟩

example : ∀ c ∈ [Call.linear 3 2 [3], .lmi 3 4, .dense 2 2, .sparse 4 [1]], c.Fits 2 := by
  simp [Call.Fits]

example : ((do
    let s ← (Conex.new 2 : Outcome (Conex ℚ))
    let s ← runs s [.linear 3 2 [3, 1], .lmi 3 4, .dense 2 2, .sparse 4 [1]]
    s.getDuals)) = .ok [(1, 3), (3, 3), (2, 2), (4, 4)] := by
  decide +kernel

/-- A second-order cone or a linear inequality made by `NewLorentzConeConstraint` or `NewLinearInequality`
is counted without recording a shape: `GetDualVariables` raises an `IndexError`. -/
theorem C64_new_violated :
    ((do
      let s ← (Conex.new 2 : Outcome (Conex ℚ))
      let s ← s.newSoc 3
      s.1.getDuals)) = .throws ∧
    ((do
      let s ← (Conex.new 2 : Outcome (Conex ℚ))
      let s ← s.newLinear 3
      s.1.getDuals)) = .throws ∧
    ((do
      let s ← (Conex.new 2 : Outcome (Conex ℚ))
      let s ← runs s [.lmi 3 1]
      let s ← s.newCost
      s.1.getDuals)) = .throws := by
  decide +kernel

/-- In general: after any calls as in `C64_served_partial`, one second-order cone makes
`GetDualVariables` fail. -/
theorem C64_new_soc_violated [Zero R] (N : Nat) (h1 : 1 ≤ N) (hN : N < 2 ^ 31) (l : List Call)
    (hl : ∀ c ∈ l, c.Fits N) (n : Int) (hn : 1 ≤ n) :
    ∃ (s s' : Conex R) (q : Conex R × Option Int), Conex.new (N : Int) = .ok s ∧ runs s l = .ok s' ∧
      s'.newSoc n = .ok q ∧ q.2 = some (l.length : Int) ∧ q.1.getDuals = .throws := by
  obtain ⟨s, hs, hi⟩ := new_inv (R := R) N h1
  obtain ⟨s', hr, hi'⟩ := Inv.runs hN l hl hi
  have hsafe : saferCast (some s'.prog) = some s'.prog := by
    unfold saferCast
    simp [hi'.fresh.1, hi'.fresh.2]
  obtain ⟨p, p1, p2, -⟩ := add_ok s'.prog (.soc n.toNat)
  have e : s'.newSoc n = .ok (({ s' with prog := p, num := s'.num + 1 } : Conex R),
      some ((p.count : Int) - 1)) := by
    unfold Conex.newSoc CApi.newSoc
    rw [if_neg (by omega)]
    simp [hsafe, p1]
  refine ⟨s, s', _, hs, hr, e, ?_, hi'.newSoc n _ e⟩
  have hc := CApi.added_count p2
  have hl := congrArg List.length hi'.eqs
  unfold Program.count at *
  simp at hl
  simp only [Option.some.injEq]
  omega

example : ∀ c ∈ [Call.lmi 3 1], c.Fits 2 := by
  simp [Call.Fits]

/-- `AddQuadraticCost` adds a constraint without counting it: the request for the first constraint reads
from the cost, with an array of the wrong size. -/
theorem C64_cost_violated :
    ((do
      let s ← (Conex.new 2 : Outcome (Conex ℚ))
      let s ← s.addQuadraticCost 2 2 [0, 1]
      let s ← runs s [.lmi 3 1]
      s.getDuals)) = .ub := by
  decide +kernel

/-- `AddLinearInequalities` may add equations, an inequality for each of two bounds, or both, but is
counted once and with as many numbers as there are bounds. -/
theorem C64_inequalities_violated :
    ((do
      let s ← (Conex.new 2 : Outcome (Conex ℚ))
      let s ← s.addLinearInequalities 2 2 [2] [2] 0 2
      s.getDuals)) = .ub ∧
    ((do
      let s ← (Conex.new 2 : Outcome (Conex ℚ))
      let s ← s.addLinearInequalities 2 2 [2] [2] 4 0
      s.getDuals)) = .ub ∧
    ((do
      let s ← (Conex.new 2 : Outcome (Conex ℚ))
      let s ← s.addLinearInequalities 2 2 [2] [2] 2 1
      let s ← runs s [.lmi 3 1]
      s.getDuals)) = .ub := by
  decide +kernel

/-- A sparse LMI that the program refuses, here because a variable is repeated, is counted all the same;
`GetDualVariables` then returns a matrix for a constraint that does not exist. -/
theorem C64_refused_violated :
    (do
      let s ← (Conex.new 2 : Outcome (Conex ℚ))
      let s ← s.addSparseLmi 1 1 2 1 1 [0, 0]
      let d ← s.getDuals
      .ok (s.prog.mgr.eqs.length, d)) = .ok (0, [(1, 1)]) := by
  decide +kernel

/-- A single inequality cannot be added by `AddLinearInequality`, whatever the shape of its affine term:
`np.squeeze` leaves an array without dimensions. -/
theorem C64_single_violated (s : Conex R) (k : Nat) (c : List Nat) (hc : ∀ n ∈ c, n = 1) :
    s.addLinearInequality 1 k c = .throws := by
  have : c.filter (· ≠ 1) = [] := by
    rw [List.filter_eq_nil_iff]
    intro n hn
    simp [hc n hn]
  unfold Conex.addLinearInequality vectorArg
  rw [this]
  split_ifs <;> rfl

example : ∀ n ∈ [1, 1], n = 1 := by decide

/-- `AddLinearInequality` and `AddDenseLinearMatrixInequality` overwrite `self.m` with the number of
columns, which need not be the number of variables of the program: the array for the solution is then
smaller than what the solver writes. -/
theorem C64_variables_violated :
    (do
      let s ← (Conex.new 3 : Outcome (Conex ℚ))
      let s ← s.addLinearInequality 2 1 [2]
      .ok (s.m, s.prog.mgr.maxVars)) = .ok (1, 3) := by
  decide +kernel

end Verif.Py
