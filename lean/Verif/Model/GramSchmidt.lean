import Verif.Model.HermitianLmi
import Verif.Model.Outcome

/-!
# Orthogonalization of columns

Model of `Orthogonalize`, `/repo/conex/jordan_matrix_algebra.cc` 218-237.  Scalars are exact, and
`std::sqrt` is a parameter.  A column of norm zero is divided by zero; its entries and those of all later
columns become NaN, and the result is `none`.
-/

namespace Verif.Ortho

open Matrix Hyper

variable {R : Type} [Field R] [DecidableEq R] {d n m : Nat}

/-- `Q.col(j)`, `/repo/conex/jordan_matrix_algebra.h` 69-83. -/
def column (Q : Hyp d (Fin n) (Fin m) R) (j : Fin m) : HermLmi.Col d n R := fun c r _ => Q c r j

/-- `Q.col(j) = v`, `/repo/conex/jordan_matrix_algebra.h` 21-26. -/
def setColumn (Q : Hyp d (Fin n) (Fin m) R) (j : Fin m) (v : HermLmi.Col d n R) :
    Hyp d (Fin n) (Fin m) R := fun c r k => if k = j then v c r () else Q c r k

/-- The loop over the later columns, `/repo/conex/jordan_matrix_algebra.cc` 230-234. -/
def project (Q : Hyp d (Fin n) (Fin m) R) (i : Fin m) : Hyp d (Fin n) (Fin m) R :=
  (List.finRange m).foldl (fun Q j =>
    if i < j then
      let ip := multiply (Hyper.conjTranspose (column Q i)) (column Q j)
      let ip := scalarMultiply ip (-1)
      setColumn Q j (Hyper.add (column Q j) (multiply (column Q i) ip))
    else Q) Q

/-- One pass of the outer loop, `/repo/conex/jordan_matrix_algebra.cc` 227-235. -/
def step (sqrt : R → R) (Q : Hyp d (Fin n) (Fin m) R) (i : Fin m) : Option (Hyp d (Fin n) (Fin m) R) :=
  let norm := sqrt (traceInner (column Q i) (column Q i))
  if norm = 0 then none
  else some (project (setColumn Q i (scalarMultiply (column Q i) (1 / norm))) i)

/-- `Orthogonalize`, `/repo/conex/jordan_matrix_algebra.cc` 218-237. -/
def orthogonalize (sqrt : R → R) (Q : Hyp d (Fin n) (Fin m) R) :
    Outcome (Option (Hyp d (Fin n) (Fin m) R)) :=
  if 8 ≤ d then .throws
  else .ok ((List.finRange m).foldlM (step sqrt) Q)

end Verif.Ortho
