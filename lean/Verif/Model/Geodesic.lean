import Verif.Model.Hyper

/-!
# The geodesic update

Model of `GeodesicUpdate`, `/repo/conex/exponential_map.cc` 5-12, 67-111, which is declared in
`/repo/conex/exponential_map.h` 9-10 and called by the tests only.  Entries are exact.
-/

namespace Verif.MatrixExp

open Hyper

/-- `factorial`, `/repo/conex/exponential_map.cc` 6-12.  The argument is at most 11, whose factorial fits into an
`int`. -/
def factorial (n : Nat) : Nat := ((List.range (n - 1)).map (· + 2)).foldl (· * ·) 1

variable {R : Type} [Field R] {ι : Type} [Fintype ι]

/-- The variables `y1`, `y2` and `y`. -/
structure Terms (d : Nat) (ι R : Type) where
  y1 : Hyp d ι ι R
  y2 : Hyp d ι ι R
  y : Hyp d ι ι R

/-- The loop body for `i`, `/repo/conex/exponential_map.cc` 74-81. -/
def geodesicStep {d : Nat} (w s : Hyp d ι ι R) (t : Terms d ι R) (i : Nat) : Terms d ι R :=
  let y1 := quadRep w (quadRep s t.y1)
  let y2 := quadRep w (quadRep s t.y2)
  let y := add t.y (add (scalarMultiply y1 (1 / factorial (2 * i))) (scalarMultiply y2 (1 / factorial (2 * i + 1))))
  ⟨scalarMultiply (add y1 (conjTranspose y1)) (1 / 2), scalarMultiply (add y2 (conjTranspose y2)) (1 / 2),
    scalarMultiply (add y (conjTranspose y)) (1 / 2)⟩

/-- `DoGeodesicUpdate` and `GeodesicUpdate`, `/repo/conex/exponential_map.cc` 67-111. -/
def geodesic {d : Nat} (w s : Hyp d ι ι R) : Hyp d ι ι R :=
  ([1, 2, 3, 4, 5].foldl (geodesicStep w s) ⟨w, quadRep w s, add w (quadRep w s)⟩).y

end Verif.MatrixExp
