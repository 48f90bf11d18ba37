import Verif.Model.DenseFactor

/-!
# Model of `RLDLT::rankUpdate` (conex/RLDLT.h 440-485, 575-605)

A rank one change of a factorization `L D Lᵀ` in place. Scalars are exact, with two exceptions that
the code itself relies on: a division by zero gives a value that is not finite, which ends the loop
when it is `alpha` and which stays in the matrix when it is a pivot.
-/

namespace Verif.Dense

variable {R : Type} [Field R] [LinearOrder R]

/-- The vector after pass `j` (RLDLT.h 468). -/
def rankVec (size j : Nat) (m : Nat → Nat → R) (w : Nat → R) : Nat → R := fun i =>
  if j < i ∧ i < size then w i - w j * m i j else w i

/-- A quotient; `none` is a value that is not finite. -/
def quot (a b : R) : Option R := if b = 0 then none else some (a / b)

/-- The multiple of the vector that is added to column `j` (RLDLT.h 469-470); zero stands for no
addition. -/
def rankFactor (sigma wj gamma : R) : Option R :=
  if gamma ≠ 0 then quot (sigma * wj) gamma else some 0

/-- The matrix after pass `j` (RLDLT.h 463, 469-470): `d` is added to the pivot, and `s` times the new
vector to column `j`. -/
def rankMat (size j : Nat) (d s : R) (m : Nat → Nat → R) (w : Nat → R) : Nat → Nat → R :=
  fun i c =>
    if c = j then
      if i = j then m j j + d
      else if j < i ∧ i < size then m i j + s * rankVec size j m w i
      else m i c
    else m i c

/-- `alpha` after pass `j` (RLDLT.h 464): `none` is a value that is not finite, which a zero pivot
gives whatever the numerator is. -/
def rankAlpha (j : Nat) (sigma alpha : R) (m : Nat → Nat → R) (w : Nat → R) : Option R :=
  (quot (sigma * (w j * w j)) (m j j)).map (alpha + ·)

/-- The loop of `updateInPlace` (RLDLT.h 453-471) over the given columns. The result `none` is a
matrix with an entry that is not finite: line 463 writes one when `alpha` is zero. -/
def rankLoop (size : Nat) (sigma : R) :
    List Nat → (Nat → Nat → R) → (Nat → R) → Option R → Option (Nat → Nat → R)
  | [], m, _, _ => some m
  | _ :: _, m, _, none => some m
  | j :: js, m, w, some alpha =>
    match quot (sigma * (w j * w j)) alpha,
        rankFactor sigma (w j) (m j j * alpha + sigma * (w j * w j)) with
    | some d, some s =>
      rankLoop size sigma js (rankMat size j d s m w) (rankVec size j m w)
        (rankAlpha j sigma alpha m w)
    | _, _ => none

/-- `internal::SignMatrix`, an enumeration of Eigen repeated in a comment (RLDLT.h 24-26). -/
inductive Sign
  | positiveSemiDef | negativeSemiDef | zeroSign | indefinite
  deriving DecidableEq

/-- The members of an initialized `RLDLT` object that `rankUpdate` touches (RLDLT.h 282-289). -/
structure Factor (R : Type) where
  mat : Nat → Nat → R
  tr : List Nat
  sign : Sign

/-- `isPositive` (RLDLT.h 171-174). -/
def Factor.isPositive (f : Factor R) : Bool :=
  decide (f.sign = .positiveSemiDef) || decide (f.sign = .zeroSign)

/-- `rankUpdate` (RLDLT.h 575-605) with `update` (475-484); `none` is an object without a
decomposition (`m_isInitialized` false), which starts as the zero matrix without transpositions.
The outcome `none` is a matrix with an entry that is not finite. -/
def rankUpdate (size : Nat) (f : Option (Factor R)) (w : Nat → R) (sigma : R) :
    Option (Factor R) :=
  let g : Factor R := f.getD
    { mat := fun _ _ => 0
      tr := List.range size
      sign := if 0 ≤ sigma then .positiveSemiDef else .negativeSemiDef }
  (rankLoop size sigma (List.range size) g.mat (fun i => w (permOf g.tr i)) (some 1)).map
    fun m => { g with mat := m }

end Verif.Dense
