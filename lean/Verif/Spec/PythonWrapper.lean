import Verif.Model.PythonWrapper

/-!
# What the Python class should return
-/

namespace Verif.Py.Spec

open CApi

variable {R : Type}

/-- The numbers of rows and columns of the dual variable of a cone constraint. -/
def shapeOf : Con → Nat × Nat
  | .hermitian n _ => (n, n)
  | .denseLmi n _ => (n, n)
  | .linear r _ => (r, 1)
  | .equality r _ => (r, 1)
  | .soc n => (n + 1, 1)
  | .cost _ => (0, 0)

/-- `GetDualVariables` serves the constraints `cs`, which the caller added in this order: it returns one
matrix for each of them, read from that constraint, and of its shape (a vector may be a row or a
column). -/
def Served (s : Conex R) (cs : List Con) : Prop :=
  ∃ l, s.getDuals = .ok l ∧ l.length = cs.length ∧
    ∀ (k : Nat) (c : Con), cs[k]? = some c → (∃ v, s.prog.mgr.eqs[k]? = some (c, v)) ∧
      (l[k]? = some (shapeOf c) ∨ l[k]? = some ((shapeOf c).2, (shapeOf c).1))

/-- The calls that add one constraint and record its affine term. -/
inductive Call where
  | linear (rows cols : Nat) (c : List Nat)
  | lmi (order dim : Nat)
  | dense (order m : Nat)
  | sparse (order : Nat) (vars : List Nat)
  deriving DecidableEq, Repr

/-- The constraint meant by a call. -/
def Call.con : Call → Con
  | .linear r k _ => .linear r k
  | .lmi n d => .hermitian n d
  | .dense n m => .denseLmi n m
  | .sparse n vars => .denseLmi n vars.length

/-- A call that fits a program with `N` variables: at least two inequalities, affine terms of the right
size, given as a vector, row or column, and variables that exist. -/
def Call.Fits (N : Nat) : Call → Prop
  | .linear r k c => 2 ≤ r ∧ k = N ∧ (c = [r] ∨ c = [r, 1] ∨ c = [1, r])
  | .lmi n d => 1 ≤ n ∧ (d = 1 ∨ d = 2 ∨ d = 4 ∨ d = 8 ∧ n ≤ 3)
  | .dense _ m => m = N
  | .sparse _ vars => vars ≠ [] ∧ vars.Nodup ∧ ∀ v ∈ vars, v < N

/-- The call. -/
def Call.run (s : Conex R) : Call → Outcome (Conex R)
  | .linear r k c => s.addLinearInequality r k c
  | .lmi n d => do let q ← s.newLmi n d; .ok q.1
  | .dense n m => s.addDenseLmi n n m n n
  | .sparse n vars => s.addSparseLmi n n vars.length n n (vars.map Int.ofNat)

/-- A sequence of calls. -/
def runs (s : Conex R) : List Call → Outcome (Conex R)
  | [] => .ok s
  | c :: cs => do let s' ← c.run s; runs s' cs

end Verif.Py.Spec
