import Verif.Model.RankUpdate

/-!
# Model of the sign that `RLDLT::compute` records (conex/RLDLT.h 319-328, 418-427, 564)
-/

namespace Verif.Dense

variable {R : Type} [Field R] [LinearOrder R]

/-- The update of the sign with a pivot (RLDLT.h 418-427). For a `1 × 1` matrix lines 320-327 do the
same from the start value. -/
def signStep (sign : Sign) (akk : R) : Sign :=
  match sign with
  | .positiveSemiDef => if akk < 0 then .indefinite else .positiveSemiDef
  | .negativeSemiDef => if 0 < akk then .indefinite else .negativeSemiDef
  | .zeroSign => if 0 < akk then .positiveSemiDef else if akk < 0 then .negativeSemiDef else .zeroSign
  | .indefinite => .indefinite

/-- The sign after `k` passes of the loop (RLDLT.h 332-427): pass `k` reads the pivot that it has
accepted or replaced. -/
def signLoop (size : Nat) (m : Nat → Nat → R) : Nat → Sign
  | 0 => .zeroSign
  | k + 1 => signStep (signLoop size m k) ((ldltLoop size m (k + 1)).mat k k)

/-- `compute` (RLDLT.h 539-573) with the sign it records; the start value is `ZeroSign` (line 564).
The outcome for an empty matrix is that of `ldlt`. -/
def compute (size : Nat) (m : Nat → Nat → R) : Outcome (Factor R) :=
  (ldlt size m).bind fun s =>
    .ok { mat := s.mat
          tr := s.tr
          sign := match size with
            | 0 => .zeroSign
            | 1 => signStep .zeroSign (s.mat 0 0)
            | n + 2 => signLoop (n + 2) m (n + 2) }

/-- `isNegative` (RLDLT.h 177-180). -/
def Factor.isNegative (f : Factor R) : Bool :=
  decide (f.sign = .negativeSemiDef) || decide (f.sign = .zeroSign)

end Verif.Dense
