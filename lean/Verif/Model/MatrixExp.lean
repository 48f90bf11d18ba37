import Mathlib.Data.Matrix.Mul
import Verif.Model.Hyper

/-!
# Approximations of the matrix exponential

Model of `/repo/conex/exponential_map_pade.cc` and of the parts of `/repo/conex/exponential_map.cc`
that constraints use.  Entries are exact.  The solution of the linear system by `partialPivLu` is a
parameter `solve`, of which only `D * solve D N = N` for invertible `D` is assumed.
-/

namespace Verif.MatrixExp

open Matrix

section Pade

variable {R : Type} [Field R] {ι : Type} [Fintype ι] [DecidableEq ι]

/-- The result `U` of `ComputeWeightedPowers`, `/repo/conex/exponential_map_pade.cc` 10-21. -/
def padeOdd (A : Matrix ι ι R) : Matrix ι ι R := A * ((1 : R) • (A * A) + (60 : R) • 1)

/-- The result `V` of `ComputeWeightedPowers`, `/repo/conex/exponential_map_pade.cc` 10-21. -/
def padeEven (A : Matrix ι ι R) : Matrix ι ι R := (12 : R) • (A * A) + (120 : R) • 1

/-- `numer`, `/repo/conex/exponential_map_pade.cc` 28. -/
def numer (A : Matrix ι ι R) : Matrix ι ι R := padeOdd A + padeEven A

/-- `denom`, `/repo/conex/exponential_map_pade.cc` 29. -/
def denom (A : Matrix ι ι R) : Matrix ι ι R := -padeOdd A + padeEven A

/-- `ExponentialMapPadeApproximation`, `/repo/conex/exponential_map_pade.cc` 23-32. -/
def pade (solve : Matrix ι ι R → Matrix ι ι R → Matrix ι ι R) (A : Matrix ι ι R) : Matrix ι ι R :=
  solve (denom A) (numer A)

end Pade

section Taylor

open Hyper

variable {R : Type} [Field R] {ι : Type} [Fintype ι] [DecidableEq ι]

/-- Adding a number to the diagonal of the real part, `at(0).diagonal().array() += s`. -/
def addDiagonal {d : Nat} (x : Hyp d ι ι R) (s : R) : Hyp d ι ι R :=
  fun i => if i.1 = 0 then x i + s • 1 else x i

/-- `DoExponentialMap`, `/repo/conex/exponential_map.cc` 15-42, with `squarings = 2` and
`degree = 2`: one term of the sum and one double squaring. -/
def taylor {d : Nat} (x : Hyp d ι ι R) : Hyp d ι ι R :=
  let xpow := scalarMultiply x (1 / 2 ^ 2)
  let y := addDiagonal xpow 1
  let xpow := scalarMultiply (multiply x xpow) (1 / 2 * (1 / 2 ^ 2))
  let y := add y xpow
  let xpow := multiply y y
  multiply xpow xpow

/-- `ExponentialMap`, `/repo/conex/exponential_map.cc` 44-65, which throws for other numbers of
components than 1, 2, 4, 8 (they are not instantiated). -/
def exponentialMap {d : Nat} (x : Hyp d ι ι R) : Hyp d ι ι R := taylor x

/-- `DoGeodesicUpdateScaled` and `GeodesicUpdateScaled`, `/repo/conex/exponential_map.cc` 133-172. -/
def geodesicScaled {d : Nat} (w s : Hyp d ι ι R) : Hyp d ι ι R :=
  let c : R := 3 / 2
  let k : R := 1 / 2
  makeHermitian (add
    (add (scalarMultiply w (c * c)) (scalarMultiply (quadRep w s) (2 * k * c)))
    (scalarMultiply (quadRep w (quadRep s w)) (k * k)))

end Taylor

end Verif.MatrixExp
