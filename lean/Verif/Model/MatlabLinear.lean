import Verif.Model.SolutionArray

/-!
# Linear inequalities through the MATLAB class

`AddLinearInequality` and `Maximize` of `/repo/interfaces/matlab/util/ConexProgram.m` (45-52, 86-100), which
`MatlabRun` leaves out: its programs have matrix inequalities only.  Only the sizes of the arrays and the entries
written are modelled.
-/

namespace Verif.MatlabLinear

open CApi SolveLoop Buffer

variable {R : Type}

/-- An object of the class: the program of the library and the property `constraints`. -/
structure Handle (R : Type) where
  prog : Program R
  ids : List Int
  deriving DecidableEq

/-- The constructor, `/repo/interfaces/matlab/util/ConexProgram.m` 28-39: the status of
`CONEX_SetNumberOfVariables` is dropped. -/
def new [Zero R] (m : Nat) : Outcome (Handle R) := do
  let r ← setVariables (some (Program.new 0 : Program R)) m
  .ok ⟨r.prog.getD (Program.new 0), []⟩

/-- `AddLinearInequality(A, c)`, `/repo/interfaces/matlab/util/ConexProgram.m` 45-52, for a matrix `A` with `rows`
rows and `cols` columns and an array `c` with `entries` entries.  The number of rows of `A` is passed as the number
of entries of `c` as well, so the library reads `rows` entries of `c` (`/repo/interfaces/conex.cc` 216-223,
`/repo/conex/linear_constraint.h` 42-46); reading outside of the array is undefined. -/
def addLinearInequality (h : Handle R) (rows cols entries : Nat) : Outcome (Handle R) :=
  if entries < rows then .ub
  else do
    let r ← addDenseLinear h.prog rows cols
    .ok ⟨r.prog.getD h.prog, h.ids ++ [r.value]⟩

/-- A sequence of calls of `AddLinearInequality`. -/
def addAll : List (Nat × Nat × Nat) → Handle R → Outcome (Handle R)
  | [], h => .ok h
  | c :: cs, h => do
    let h' ← addLinearInequality h c.1 c.2.1 c.2.2
    addAll cs h'

/-- Every linear inequality has one column for each variable.  The library does not check it
(`/repo/conex/constraint_manager.h` 50-58); the solver relies on it when it adds the system of a constraint to
that of the program. -/
def columnsFit (p : Program R) : Bool :=
  p.mgr.eqs.all fun e =>
    match e.1 with
    | .linear _ cols => cols = p.mgr.maxVars
    | _ => true

/-- The call of the library in `Maximize(b)`, `/repo/interfaces/matlab/util/ConexProgram.m` 86-93: the array for `y`
has as many entries as `b`.  Inequalities that do not fit are undefined when the solver starts, which it does only
if there are constraints; simplified: reported for every program. -/
def maximize [Field R] [LinearOrder R] (sqrt : R → R) (h : Handle R) (b : List R) (stats : Option (Stats R))
    (status : Status) (cfg : Config R) (o : Oracle R) : Outcome (Result R × List Nat) :=
  if columnsFit h.prog then conexMaximize sqrt h.prog b stats status cfg o b.length else .ub

end Verif.MatlabLinear
