import Verif.Model.MatlabLinear
import Verif.Model.WholeDual

/-!
# Dual variables through the MATLAB class

`GetDualVariable` and the loop of `Maximize` over the constraints,
`/repo/interfaces/matlab/util/ConexProgram.m` 62-67 and 95-98.  The constraints with the scaling points that the
solve left behind are an argument.
-/

namespace Verif.MatlabLinear

open SolveLoop

variable {R : Type} [Field R] [LinearOrder R]

/-- `GetDualVariable(i)`, `/repo/interfaces/matlab/util/ConexProgram.m` 62-67: an array of zeros of the size that
the library reports, as a column, and what the library writes to it. -/
def getDualVariable (es : List (Dual.Entry R)) (prog : Prog R) (i : Int) : Outcome (List (Option R)) := do
  let n := Dual.getDualSize es i
  let x ← Whole.readDual es prog i n 1
  .ok (x.getD (List.replicate n (some 0)))

/-- The cells `x` of `Maximize`, `/repo/interfaces/matlab/util/ConexProgram.m` 95-98: one for each number in the
property `constraints`, whatever the status of the solve. -/
def duals (es : List (Dual.Entry R)) (prog : Prog R) : List Int → Outcome (List (List (Option R)))
  | [] => .ok []
  | i :: is => do
    let x ← getDualVariable es prog i
    let xs ← duals es prog is
    .ok (x :: xs)

/-- `Maximize(b)`, `/repo/interfaces/matlab/util/ConexProgram.m` 86-100: the solve and then the cells; `es` gives
the constraints after the solve from its result. -/
def maximizeAll (sqrt : R → R) (h : Handle R) (b : List R) (stats : Option (Stats R)) (status : Status)
    (cfg : Config R) (o : Oracle R) (es : Result R → List (Dual.Entry R)) :
    Outcome (Bool × List (List (Option R))) := do
  let r ← maximize sqrt h b stats status cfg o
  let x ← duals (es r.1) r.1.prog h.ids
  .ok (r.1.ret, x)

end Verif.MatlabLinear
