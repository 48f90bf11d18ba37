import Verif.Model.CApi

/-!
# The Python class `Conex`

Model of the bookkeeping of the class `Conex`, `/repo/interfaces/python/ConexProgram.py` 58-242, on top of
the C interface (`Verif.CApi`).  Arrays are represented by their shapes.  An exception of Python is
`throws`; an assertion of the C interface that fails is `ub`, as release builds go on.

The conversions are those of `/repo/interfaces/python/conex.i` 18-29: `IN_ARRAY1` takes arrays of one
dimension only, `IN_FARRAY2` of two, `IN_FARRAY3` of three, and a `TypeError` is raised otherwise.
-/

namespace Verif.Py

open CApi

variable {R : Type}

/-- The fields of `Conex` that matter here, `/repo/interfaces/python/ConexProgram.py` 59-69: the program
behind `self.a`, `self.m`, `self.num_constraints`, and the shapes of the entries of `self.c` as
matrices. -/
structure Conex (R : Type) where
  prog : Program R
  m : Int
  num : Nat
  shapes : List (Nat × Nat)
  deriving DecidableEq, Repr

/-- `Conex(m)`, `/repo/interfaces/python/ConexProgram.py` 59-69.  The status of
`CONEX_SetNumberOfVariables` is ignored. -/
def Conex.new [Zero R] (m : Int) : Outcome (Conex R) := do
  let p : Program R := Program.new 0
  if 0 ≤ m then do
    let r ← setVariables (some p) m
    .ok ⟨r.prog.getD p, m, 0, []⟩
  else .ok ⟨p, m, 0, []⟩

/-- The shape of `np.matrix(c)` for an array `c` of the given shape. -/
def npMatrix : List Nat → Outcome (Nat × Nat)
  | [] => .ok (1, 1)
  | [n] => .ok (1, n)
  | [r, c] => .ok (r, c)
  | _ => .throws

/-- `np.squeeze(np.array(c[:])).transpose()` given to a parameter of kind `IN_ARRAY1`: the number of
entries.  `c[:]` raises an exception for an array without dimensions. -/
def vectorArg (c : List Nat) : Outcome Nat :=
  if c = [] then .throws
  else match c.filter (· ≠ 1) with
    | [n] => .ok n
    | _ => .throws

/-- `AddLinearInequality(A, c)`, `/repo/interfaces/python/ConexProgram.py` 98-105, for a matrix `A` with
`r` rows and `k` columns and an array `c` of the given shape. -/
def Conex.addLinearInequality (s : Conex R) (r k : Nat) (c : List Nat) : Outcome (Conex R) := do
  let n ← vectorArg c
  if r ≠ n then .ub
  else do
    let p ← addDenseLinear s.prog r k
    let d ← npMatrix c
    .ok ⟨p.prog.getD s.prog, k, s.num + 1, s.shapes ++ [d]⟩

/-- `AddLinearInequalities(A, lb, ub)`, `/repo/interfaces/python/ConexProgram.py` 107-114, when the
preprocessing leaves `ineq` inequalities and `eq` equations. -/
def Conex.addLinearInequalities (s : Conex R) (r k : Nat) (lb ub : List Nat) (ineq eq : Nat) :
    Outcome (Conex R) := do
  let n1 ← vectorArg lb
  let n2 ← vectorArg ub
  if r ≠ n1 ∨ r ≠ n2 then .ub
  else do
    let p ← CApi.addLinearInequalities s.prog ineq eq k
    let d ← npMatrix [n2]
    .ok ⟨p.prog.getD s.prog, s.m, s.num + 1, s.shapes ++ [d]⟩

/-- `AddQuadraticCost(P)`, `/repo/interfaces/python/ConexProgram.py` 90-97, for a matrix with `r` rows and
`k` columns in which `NonZeroSubMat` finds the variables `vars`.  The status is ignored. -/
def Conex.addQuadraticCost (s : Conex R) (r k : Nat) (vars : List Nat) : Outcome (Conex R) :=
  if (r : Int) ≠ s.m ∨ (k : Int) ≠ s.m then .throws
  else do
    let p ← addCost (some s.prog) vars
    .ok { s with prog := p.prog.getD s.prog }

/-- `NewLinearMatrixInequality(order, hyper_complex_dim)`,
`/repo/interfaces/python/ConexProgram.py` 171-178. -/
def Conex.newLmi (s : Conex R) (order dim : Int) : Outcome (Conex R × Option Int) := do
  let r ← CApi.newLmi (some s.prog) order dim true
  if r.value ≠ 0 then .throws
  else .ok (⟨r.prog.getD s.prog, s.m, s.num + 1, s.shapes ++ [(order.toNat, order.toNat)]⟩, r.id)

/-- `NewLorentzConeConstraint(order)`, `/repo/interfaces/python/ConexProgram.py` 180-186. -/
def Conex.newSoc (s : Conex R) (order : Int) : Outcome (Conex R × Option Int) := do
  let r ← CApi.newSoc (some s.prog) order true
  if r.value ≠ 0 then .throws
  else .ok ({ s with prog := r.prog.getD s.prog, num := s.num + 1 }, r.id)

/-- `NewLinearInequality(num_rows)`, `/repo/interfaces/python/ConexProgram.py` 188-194. -/
def Conex.newLinear (s : Conex R) (rows : Nat) : Outcome (Conex R × Option Int) := do
  let r ← CApi.newLinear (some s.prog) rows true
  if r.value ≠ 0 then .throws
  else .ok ({ s with prog := r.prog.getD s.prog, num := s.num + 1 }, r.id)

/-- `NewQuadraticCost()`, `/repo/interfaces/python/ConexProgram.py` 196-202. -/
def Conex.newCost (s : Conex R) : Outcome (Conex R × Option Int) := do
  let r ← CApi.newCost (some s.prog) true
  if r.value ≠ 0 then .throws
  else .ok ({ s with prog := r.prog.getD s.prog, num := s.num + 1 }, r.id)

/-- `AddDenseLinearMatrixInequality(A, c)`, `/repo/interfaces/python/ConexProgram.py` 222-231, for an
array `A` with the dimensions `a`, `b`, `k` and a matrix `c` with `r` rows and `l` columns; the
assertions are those of `/repo/interfaces/conex.cc` 139-141. -/
def Conex.addDenseLmi (s : Conex R) (a b k r l : Nat) : Outcome (Conex R) :=
  if a ≠ b ∨ a ≠ r ∨ l ≠ r then .ub
  else do
    let p ← CApi.addDenseLmi s.prog l k
    .ok ⟨p.prog.getD s.prog, k, s.num + 1, s.shapes ++ [(r, l)]⟩

/-- `AddSparseLinearMatrixInequality(A, c, variables)`,
`/repo/interfaces/python/ConexProgram.py` 233-242, with `LMIOperator(A, [m, variables])` (lines 31-39); `np.max`
raises an exception for an empty list.  The assertions are those of `/repo/interfaces/conex.cc` 165-168. -/
def Conex.addSparseLmi (s : Conex R) (a b k r l : Nat) (vars : List Int) : Outcome (Conex R) :=
  if vars = [] then .throws
  else if ∃ v ∈ vars, s.m < v + 1 then .throws
  else if vars.length ≠ k then .throws
  else if a ≠ b ∨ a ≠ r ∨ l ≠ r then .ub
  else do
    let p ← CApi.addSparseLmi s.prog l vars
    .ok { s with prog := p.prog.getD s.prog, num := s.num + 1, shapes := s.shapes ++ [(r, l)] }

/-- `dual_variable_size`, `/repo/conex/constraint.h` 153-155, by kind of constraint; see
`Verif.Dual.Item.dualSize`. -/
def conDualSize : Con → Nat
  | .hermitian n _ => n * n
  | .denseLmi n _ => n * n
  | .linear r _ => r
  | .equality _ _ => 0
  | .soc n => n + 1
  | .cost _ => 0

/-- `GetDualVariableSize`, `/repo/conex/cone_program.h` 136-145: the failed demand returns 1. -/
def Conex.dualSize (s : Conex R) (i : Nat) : Nat :=
  match s.prog.mgr.eqs[i]? with
  | some x => conDualSize x.1
  | none => 1

/-- One pass of the loop of `GetDualVariables`, `/repo/interfaces/python/ConexProgram.py` 161-167: the
shape of the matrix appended.  `self.c[i]` raises an `IndexError` if there is no such entry; an array of
another size than that of the variable violates the assertion of `/repo/interfaces/conex.cc` 116. -/
def Conex.getDual (s : Conex R) (i : Nat) : Outcome (Nat × Nat) :=
  match s.shapes[i]? with
  | none => .throws
  | some (r, c) => if s.dualSize i ≠ r * c then .ub else .ok (c, r)

/-- `GetDualVariables()`, `/repo/interfaces/python/ConexProgram.py` 158-169. -/
def Conex.getDuals (s : Conex R) : Outcome (List (Nat × Nat)) :=
  (List.range s.num).foldlM (fun l i => do let d ← s.getDual i; .ok (l ++ [d])) []

end Verif.Py
