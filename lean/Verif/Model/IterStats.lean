import Verif.Model.LineSearch
import Verif.Model.Solve

/-!
# Reading the statistics of a solve

Model of `CONEX_GetIterationStats`, `/repo/interfaces/conex.cc` 259-285, on the statistics block that
the model of `Solve` (`Verif.SolveLoop`) leaves in the program.
-/

namespace Verif.IterStats

open SolveLoop LineSearch

variable {R : Type} [Field R] [LinearOrder R]

/-- `CONEX_IterationStats`, `/repo/interfaces/conex.h` 31-35. -/
structure Record (R : Type) where
  mu : Ext R
  iterationNumber : Int
  deriving DecidableEq, Repr

/-- Reading `sqrt_inv_mu[i]`: the last value written there.  A slot that was never written holds an
indeterminate value. -/
def readSlot (st : Stats R) (i : Nat) : Outcome R :=
  readVar (st.sqrtInvMu.lookup i)

/-- `CONEX_GetIterationStats(prog, stats, iter_num_circular)`, `/repo/interfaces/conex.cc` 259-285.
`none` is a null pointer.  Line 268 dereferences `program.stats`, which is null before the first
solve; afterwards `IsInitialized()` holds, as `Solve` allocates and binds the block together.
Returned is the caller's record after the call.  Messages are omitted; `int` does not overflow. -/
def getIterationStats (prog : Option (Prog R)) (rec : Option (Record R)) (i : Int) :
    Outcome (Option (Record R)) :=
  match prog, rec with
  | none, r => .ok r
  | some _, none => .ok none
  | some p, some r =>
    match p.stats with
    | none => .ub
    | some st => do
      let n ← readVar st.numIter
      let j := if i < 0 then (n : Int) + i else i
      if (n : Int) ≤ j ∨ j < 0 then .ok (some r)
      else do
        let k ← readSlot st j.toNat
        .ok (some { mu := ediv 1 (k * k), iterationNumber := j })

end Verif.IterStats
