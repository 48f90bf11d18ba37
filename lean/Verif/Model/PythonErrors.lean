import Mathlib.Algebra.BigOperators.Group.Finset.Basic
import Mathlib.Algebra.Ring.Defs
import Mathlib.Order.Defs.LinearOrder
import Verif.Model.Outcome

/-!
# The error report of the Python class `Conex`

Model of `ComputeErrors` and of the class `LMIOperator`, `/repo/interfaces/python/ConexProgram.py` 11-56 and 244-277,
with the lists `self.A` and `self.c` that the other methods fill.  An exception of Python is `throws`.  The calls of the
C interface are those of `Verif.Py` and are left out here.
-/

namespace Verif.PyErr

variable {R : Type}

/-- A matrix of numpy: its shape and its entries. -/
structure Mat (R : Type) where
  rows : Nat
  cols : Nat
  at' : Nat → Nat → R

/-- `x.transpose()` for a matrix. -/
def Mat.transpose (a : Mat R) : Mat R := ⟨a.cols, a.rows, fun i j => a.at' j i⟩

/-- `-x`. -/
def Mat.neg [Neg R] (a : Mat R) : Mat R := ⟨a.rows, a.cols, fun i j => -a.at' i j⟩

/-- `N.dot(a, b)`: the product, an exception if the shapes do not fit. -/
def Mat.mul [AddCommMonoid R] [Mul R] (a b : Mat R) : Outcome (Mat R) :=
  if a.cols ≠ b.rows then .throws
  else .ok ⟨a.rows, b.cols, fun i j => ∑ k ∈ Finset.range a.cols, a.at' i k * b.at' k j⟩

/-- The size of a sum along one axis: sizes agree or one of them is 1. -/
def broadcast (m n : Nat) : Outcome Nat :=
  if m = n then .ok m else if m = 1 then .ok n else if n = 1 then .ok m else .throws

/-- The index into an axis of size `m` that is stretched if `m = 1`. -/
def stretched (m i : Nat) : Nat := if m = 1 then 0 else i

/-- `a + b` and `np.add(a, b)` with broadcasting. -/
def Mat.add [Add R] (a b : Mat R) : Outcome (Mat R) := do
  let m ← broadcast a.rows b.rows
  let n ← broadcast a.cols b.cols
  .ok ⟨m, n, fun i j => a.at' (stretched a.rows i) (stretched a.cols j) + b.at' (stretched b.rows i) (stretched b.cols j)⟩

/-- `np.trace`: the sum of the diagonal. -/
def Mat.trace [AddCommMonoid R] (a : Mat R) : R := ∑ i ∈ Finset.range (min a.rows a.cols), a.at' i i

/-- An index of Python into an axis of size `n`: negative ones count from the end, others raise an `IndexError`. -/
def index (n : Nat) (v : Int) : Outcome Nat :=
  if 0 ≤ v ∧ v < n then .ok v.toNat else if v < 0 ∧ 0 ≤ v + n then .ok (v + n).toNat else .throws

/-- The fields of `LMIOperator`, `/repo/interfaces/python/ConexProgram.py` 24-29: the array `matrices` of shape
`rows × cols × num`, `m`, `variables` and `transposed`. -/
structure LmiOp (R : Type) where
  rows : Nat
  cols : Nat
  num : Nat
  matrices : Nat → Nat → Nat → R
  m : Int
  vars : List Int
  transposed : Bool

/-- `LMIOperator(x, variables)`, `/repo/interfaces/python/ConexProgram.py` 31-39; `none` is the default argument. -/
def LmiOp.new (rows cols num : Nat) (x : Nat → Nat → Nat → R) (given : Option (Int × List Int)) :
    Outcome (LmiOp R) :=
  let v := given.getD (num, (List.range num).map Int.ofNat)
  if v.2.length ≠ num then .throws else .ok ⟨rows, cols, num, x, v.1, v.2, false⟩

/-- `self.matrices[:, :, i]`. -/
def LmiOp.matrix (a : LmiOp R) (i : Nat) : Mat R := ⟨a.rows, a.cols, fun p q => a.matrices p q i⟩

/-- The loop of `__mul__` for a transposed operator, `/repo/interfaces/python/ConexProgram.py` 44-45, from position `i`
on: the entries of `y` are overwritten. -/
def LmiOp.adjointLoop [AddCommMonoid R] [Mul R] (a : LmiOp R) (x : Mat R) (m : Nat) :
    List Int → Nat → (Nat → R) → Outcome (Nat → R)
  | [], _, y => .ok y
  | v :: vs, i, y => do
    let p ← (a.matrix i).mul x
    let k ← index m v
    a.adjointLoop x m vs (i + 1) (Function.update y k p.trace)

/-- The loop of `__mul__` for an operator that is not transposed, `/repo/interfaces/python/ConexProgram.py` 49-50.
`float(x[var])` raises an exception unless the row has one entry. -/
def LmiOp.applyLoop [Add R] [Mul R] (a : LmiOp R) (x : Mat R) : List Int → Nat → Mat R → Outcome (Mat R)
  | [], _, y => .ok y
  | v :: vs, i, y => do
    let k ← index x.rows v
    if x.cols ≠ 1 then .throws
    else do
      let y ← y.add ⟨a.rows, a.cols, fun p q => a.matrices p q i * x.at' k 0⟩
      a.applyLoop x vs (i + 1) y

/-- `LMIOperator.__mul__`, `/repo/interfaces/python/ConexProgram.py` 41-51. -/
def LmiOp.mul [AddCommMonoid R] [Mul R] (a : LmiOp R) (x : Mat R) : Outcome (Mat R) :=
  if a.transposed then
    if a.m < 0 then .throws
    else do
      let y ← a.adjointLoop x a.m.toNat a.vars 0 (fun _ => 0)
      .ok ⟨a.m.toNat, 1, fun i _ => y i⟩
  else if a.num = 0 then .throws
  else a.applyLoop x a.vars 0 ⟨a.rows, a.cols, fun p q => a.matrices p q 0 * 0⟩

/-- `LMIOperator.transpose`, `/repo/interfaces/python/ConexProgram.py` 53-56: the field `transposed` of the new object
is `False` before it is negated. -/
def LmiOp.transpose (a : LmiOp R) : Outcome (LmiOp R) := do
  let y ← LmiOp.new a.rows a.cols a.num a.matrices (some (a.m, a.vars))
  .ok { y with transposed := !y.transposed }

/-- An entry of `self.A`. -/
inductive Operator (R : Type) where
  | matrix (a : Mat R)
  | lmi (a : LmiOp R)

/-- `A.__mul__(x)`. -/
def Operator.mul [AddCommMonoid R] [Mul R] : Operator R → Mat R → Outcome (Mat R)
  | .matrix a, x => a.mul x
  | .lmi a, x => a.mul x

/-- `A.transpose()`. -/
def Operator.transpose : Operator R → Outcome (Operator R)
  | .matrix a => .ok (.matrix a.transpose)
  | .lmi a => do let t ← a.transpose; .ok (.lmi t)

/-- The fields of `Conex` that `ComputeErrors` reads, `/repo/interfaces/python/ConexProgram.py` 64-69: `self.A`,
`self.c` (as matrices), `self.num_constraints` and `self.m`. -/
structure Conex (R : Type) where
  A : List (Operator R)
  c : List (Mat R)
  num : Nat
  m : Int

/-- `Conex(m)`, `/repo/interfaces/python/ConexProgram.py` 59-69. -/
def Conex.new (m : Int) : Conex R := ⟨[], [], 0, m⟩

/-- `AddLinearInequality(A, c)`, `/repo/interfaces/python/ConexProgram.py` 98-105, given `np.matrix(A)` and
`np.matrix(c)`; the latter has one row if `c` has one dimension. -/
def Conex.addLinearInequality (s : Conex R) (A c : Mat R) : Conex R :=
  ⟨s.A ++ [.matrix A], s.c ++ [c], s.num + 1, A.cols⟩

/-- `NewLinearMatrixInequality(order, _)`, `/repo/interfaces/python/ConexProgram.py` 171-178. -/
def Conex.newLmi [Zero R] (s : Conex R) (order : Nat) : Conex R :=
  { s with c := s.c ++ [⟨order, order, fun _ _ => 0⟩], num := s.num + 1 }

/-- `NewLorentzConeConstraint`, `NewLinearInequality` and `NewQuadraticCost`,
`/repo/interfaces/python/ConexProgram.py` 180-202. -/
def Conex.newOther (s : Conex R) : Conex R := { s with num := s.num + 1 }

/-- `AddDenseLinearMatrixInequality(A, c)`, `/repo/interfaces/python/ConexProgram.py` 222-231, for an array of shape
`rows × cols × num`. -/
def Conex.addDenseLmi (s : Conex R) (rows cols num : Nat) (A : Nat → Nat → Nat → R) (c : Mat R) :
    Outcome (Conex R) := do
  let a ← LmiOp.new rows cols num A none
  .ok ⟨s.A ++ [.lmi a], s.c ++ [c], s.num + 1, num⟩

/-- `AddSparseLinearMatrixInequality(A, c, variables)`, `/repo/interfaces/python/ConexProgram.py` 233-242. -/
def Conex.addSparseLmi (s : Conex R) (rows cols num : Nat) (A : Nat → Nat → Nat → R) (c : Mat R) (vars : List Int) :
    Outcome (Conex R) :=
  if vars = [] then .throws
  else if ∃ v ∈ vars, s.m < v + 1 then .throws
  else do
    let a ← LmiOp.new rows cols num A (some (s.m, vars))
    .ok { s with A := s.A ++ [.lmi a], c := s.c ++ [c], num := s.num + 1 }

/-- The lists `Errors.min_eig_S` and `Errors.min_eig_X`, `/repo/interfaces/python/ConexProgram.py` 14-15.  They belong
to the class, not to its instances, and so outlive a call. -/
structure Lists (R : Type) where
  minS : List R
  minX : List R

/-- Functions of SciPy: `min(la.eig(s)[0])` for a square matrix and `la.norm`. -/
structure Ext (R : Type) where
  minEig : Nat → (Nat → Nat → R) → R
  norm : Nat → (Nat → R) → R

/-- `min(s)` for an array: the least row.  Arrays with several columns, which numpy refuses to compare, raise an
exception; simplified: also those with a single row. -/
def Mat.min [LinearOrder R] (a : Mat R) : Outcome R :=
  if a.cols ≠ 1 ∨ a.rows = 0 then .throws
  else .ok (((List.range (a.rows - 1)).map fun i => a.at' (i + 1) 0).foldl Min.min (a.at' 0 0))

/-- `min(la.eig(s)[0])`: an exception unless the matrix is square. -/
def Mat.leastEig (ext : Ext R) (a : Mat R) : Outcome R :=
  if a.rows ≠ a.cols ∨ a.rows = 0 then .throws else .ok (ext.minEig a.rows a.at')

/-- The variables of the loop of `ComputeErrors`: `Ax`, `sa`, `err.x_dot_s` and the two lists. -/
structure State (R : Type) where
  Ax : Option (Mat R)
  sa : List (Mat R)
  xDotS : Mat R
  lists : Lists R

/-- An entry of a list of Python, `IndexError` if there is none. -/
def get (l : List α) (i : Nat) : Outcome α :=
  match l[i]? with
  | some a => .ok a
  | none => .throws

/-- `Ax = ...` in the first pass and `Ax = Ax + ...` in the others, lines 259-262. -/
def accumulate [Add R] : Option (Mat R) → Mat R → Outcome (Mat R)
  | none, b => .ok b
  | some a, b => a.add b

/-- One pass of the loop of `ComputeErrors`, `/repo/interfaces/python/ConexProgram.py` 251-274.  The entries of `xa` are
matrices of numpy, as `GetDualVariables` returns them, so that `*` is the matrix product in line 268. -/
def Conex.errorStep [AddCommGroup R] [Mul R] [LinearOrder R] (ext : Ext R) (p : Conex R) (y : Mat R) (xa : List (Mat R))
    (st : State R) (i : Nat) : Outcome (State R) := do
  let A ← get p.A i
  let ci ← get p.c i
  let c := ci.transpose
  let x ← get xa i
  let Ay ← A.mul y
  let At ← A.transpose
  let Atx ← At.mul x
  let Ax ← accumulate st.Ax Atx
  let s ← c.add Ay.neg
  if c.rows = 1 ∨ c.cols = 1 then do
    let d ← s.transpose.mul x
    let a ← s.min
    let b ← x.min
    .ok ⟨some Ax, st.sa ++ [s], d, ⟨st.lists.minS ++ [a], st.lists.minX ++ [b]⟩⟩
  else do
    let d ← s.mul x
    let e ← st.xDotS.add ⟨1, 1, fun _ _ => d.trace⟩
    let a ← s.leastEig ext
    let b ← x.leastEig ext
    .ok ⟨some Ax, st.sa ++ [s], e, ⟨st.lists.minS ++ [a], st.lists.minX ++ [b]⟩⟩

/-- The loop, lines 251-274. -/
def Conex.errorLoop [AddCommGroup R] [Mul R] [LinearOrder R] (ext : Ext R) (p : Conex R) (y : Mat R) (xa : List (Mat R)) :
    List Nat → State R → Outcome (State R)
  | [], st => .ok st
  | i :: is, st => do
    let st ← p.errorStep ext y xa st i
    p.errorLoop ext y xa is st

/-- What `ComputeErrors` returns: `sa` and the fields of `err`. -/
structure Report (R : Type) where
  sa : List (Mat R)
  xDotS : Mat R
  minS : List R
  minX : List R
  residual : R

/-- `ComputeErrors(y, xa, b)`, `/repo/interfaces/python/ConexProgram.py` 244-277, with the lists of the class before and
after the call.  Without constraints `Ax` is not bound.  Simplified: an exception leaves the lists as they were, and
`la.norm` is given a column (a `b` of another shape raises an exception). -/
def Conex.computeErrors [AddCommGroup R] [Mul R] [LinearOrder R] (ext : Ext R) (p : Conex R) (cls : Lists R) (y : Mat R)
    (xa : List (Mat R)) (b : Mat R) : Outcome (Report R × Lists R) := do
  let b := if b.rows < b.cols then b.transpose else b
  let st ← p.errorLoop ext y xa (List.range p.num) ⟨none, [], ⟨1, 1, fun _ _ => 0⟩, cls⟩
  match st.Ax with
  | none => .throws
  | some Ax => do
    let d ← b.add Ax.neg
    if d.cols ≠ 1 then .throws
    else .ok (⟨st.sa, st.xDotS, st.lists.minS, st.lists.minX, ext.norm d.rows (fun i => d.at' i 0)⟩, st.lists)

end Verif.PyErr
