import Verif.Model.PythonWrapper
import Verif.Model.Solve

/-!
# The array for the solution

Model of the entry points that solve a program and fill an array of the caller: `CONEX_Solve` and
`CONEX_Maximize` (`/repo/interfaces/conex.cc` 93-112), and `Solve` and `Maximize` of the Python class
(`/repo/interfaces/python/ConexProgram.py` 128-156).
-/

namespace Verif.Buffer

open CApi SolveLoop

variable {R : Type}

/-- The entries of the array that `Solve` writes: `Eigen::Map(primal_variable, m, 1)` with
`m = prog.linear_cost_.rows()`, `/repo/conex/cone_program.cc` 242, 264-269, 277, 486, 518-521. -/
def cells (m : Nat) : Output R → List Nat
  | .untouched => []
  | .infinite => List.range m
  | .raw _ => List.range m
  | .scaled _ _ _ => List.range m

/-- The program as the optimisation loop sees it.  The statistics and the status are those of the last
solve. -/
def toProg (p : Program R) (stats : Option (Stats R)) (status : Status) : Prog R :=
  { quadratic := p.quadratic, constraints := p.count, initialized := p.initialized, stats := stats,
    status := status }

section

variable [Field R] [LinearOrder R]

/-- `CONEX_Solve(prog, config, y, yr)`, `/repo/interfaces/conex.cc` 107-112, for an array with `yr`
entries: the result and the entries written.  The number `yr` is not looked at; a write outside of the
array is undefined. -/
def conexSolve (sqrt : R → R) (p : Program R) (stats : Option (Stats R)) (status : Status)
    (cfg : Config R) (o : Oracle R) (yr : Nat) : Outcome (Result R × List Nat) := do
  let r ← solve sqrt (toProg p stats status) cfg o
  let w := cells p.linearCost.length r.out
  if w.all (· < yr) then .ok (r, w) else .ub

/-- `CONEX_Maximize(prog, b, br, config, y, yr)`, `/repo/interfaces/conex.cc` 93-105, with
`Solve(b, prog, config, y)`, `/repo/conex/cone_program.cc` 547-552. -/
def conexMaximize (sqrt : R → R) (p : Program R) (b : List R) (stats : Option (Stats R))
    (status : Status) (cfg : Config R) (o : Oracle R) (yr : Nat) : Outcome (Result R × List Nat) :=
  let p := p.clearLinearCosts
  let p := (p.addLinearCost (b.map fun x => -x)).2
  conexSolve sqrt p stats status cfg o yr

/-- `np.ones((m))`: a negative number raises a `ValueError`. -/
def npOnes (m : Int) : Outcome Nat := if m < 0 then .throws else .ok m.toNat

/-- `Solve(config)` of the Python class, `/repo/interfaces/python/ConexProgram.py` 128-137. -/
def pySolve (sqrt : R → R) (s : Py.Conex R) (stats : Option (Stats R)) (status : Status)
    (cfg : Config R) (o : Oracle R) : Outcome (Result R × List Nat) := do
  let yr ← npOnes s.m
  conexSolve sqrt s.prog stats status { cfg with lineSearch := true, rescaling := false } o yr

/-- `Maximize(b, config)` of the Python class, `/repo/interfaces/python/ConexProgram.py` 140-156, for a
vector `b` (a list, a row or a column). -/
def pyMaximize (sqrt : R → R) (s : Py.Conex R) (b : List R) (stats : Option (Stats R))
    (status : Status) (cfg : Config R) (o : Oracle R) : Outcome (Result R × List Nat) :=
  if (b.length : Int) ≠ s.m then .throws
  else do
    let yr ← npOnes s.m
    conexMaximize sqrt s.prog b stats status cfg o yr

end

end Verif.Buffer
