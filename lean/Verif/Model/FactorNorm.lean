import Verif.Model.FactorSign

/-!
# Model of the other members of `RLDLT` (conex/RLDLT.h 88-140, 216-262, 282-289, 539-605)

The norm that `rcond` uses, `info` and `regularization_used`. The constructors do not set these
members; reading a member that no function has set is undefined.
-/

namespace Verif.Dense

open Finset

variable {R : Type} [Field R] [LinearOrder R]

/-- The sum of column `col` (RLDLT.h 553-555): the part of the column from the diagonal on and the
part of row `col` before the diagonal, so that only the lower triangle is read. -/
def absColSum (size : Nat) (a : Nat → Nat → R) (col : Nat) : R :=
  ∑ i ∈ range (size - col), |a (col + i) col| + ∑ j ∈ range col, |a col j|

/-- The loop of RLDLT.h 549-560 for the default `_UpLo = Lower`. -/
def l1Norm (size : Nat) (a : Nat → Nat → R) : R :=
  (List.range size).foldl
    (fun acc col => if acc < absColSum size a col then absColSum size a col else acc) 0

/-- An `RLDLT` object (RLDLT.h 282-289). `factor` is `none` while `m_isInitialized` is false; the other
members are `none` while they are uninitialised. `m_info` has the value `Success` whenever it is set,
so it is a unit. -/
structure Object (R : Type) where
  factor : Option (Factor R)
  norm : Option R
  regularized : Option Bool
  info : Option Unit

/-- The default constructor (RLDLT.h 88-92) and the one with a size (100-105). -/
def Object.new : Object R := ⟨none, none, none, none⟩

/-- `compute` (RLDLT.h 539-573): every member is set, whatever the object held. -/
def Object.compute (size : Nat) (a : Nat → Nat → R) (_o : Object R) : Outcome (Object R) :=
  (ldlt size a).bind fun s =>
    (Dense.compute size a).bind fun f =>
      .ok ⟨some f, some (l1Norm size a), some (!s.ret), some ()⟩

/-- `rankUpdate` (RLDLT.h 575-605): it sets the decomposition and the sign only. The outcome `none` is
that of `rankUpdate` of the decomposition. -/
def Object.rankUpdate (size : Nat) (w : Nat → R) (sigma : R) (o : Object R) : Option (Object R) :=
  (Dense.rankUpdate size o.factor w sigma).map fun f => { o with factor := some f }

/-- Reading a member after the assertion on `m_isInitialized` (RLDLT.h 220, 254, 259), which is absent
in a release build. -/
def readMember {α : Type} : Option α → Outcome α
  | some a => .ok a
  | none => .ub

/-- The norm that `rcond` (RLDLT.h 219-222) passes to the estimator of Eigen. -/
def Object.rcondNorm (o : Object R) : Outcome R := readMember o.norm

/-- `info` (RLDLT.h 253-256). -/
def Object.getInfo (o : Object R) : Outcome Unit := readMember o.info

/-- `regularization_used` (RLDLT.h 258-261). -/
def Object.regularizationUsed (o : Object R) : Outcome Bool := readMember o.regularized

end Verif.Dense
