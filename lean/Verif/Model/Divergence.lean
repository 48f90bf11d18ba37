import Mathlib.Algebra.Order.Field.Basic

/-!
# The divergence bound and the choice of the barrier parameter

Model of `/repo/conex/divergence.cc` and of `GetWeightedSlackEigenvalues` (program level),
`MinimizeNormInf`, `ComputeMuFromDivergence` and the program level `PrepareStep`
(`/repo/conex/cone_program.cc` 31-57, 166-214, `/repo/conex/cone_program.h` 69-90).

Scalars are exact.  `sqrt` is a parameter.  The square root of a negative number is NaN in the code
and every comparison with it is false; `rationalRoot` returns `none` then.  Divisions by zero (no
constraint, all slack eigenvalues zero) are outside the model: the theorems assume non-zero divisors.
-/

namespace Verif.Divergence

variable {R : Type} [Field R] [LinearOrder R]

/-- `WeightedSlackEigenvalues`, `/repo/conex/newton_step.h` 11-18, without the unused `limit`. -/
structure Slack (R : Type) where
  frob : R
  trace : R
  lmin : R
  lmax : R
  rank : R
  deriving DecidableEq, Repr

/-- `SolveRationalEquation`, `/repo/conex/divergence.cc` 18-23. -/
def rationalRoot (sqrt : R → R) (a b c d k : R) : Option R :=
  let u := b * b - 4 * a * c + 8 * a * k + 2 * b * d * k + (d * k) ^ 2
  if u < 0 then none else some (-(b + d * k - sqrt u) / (2 * a))

/-- `InverseLambdaMaxBranch`, `/repo/conex/divergence.cc` 26-41. -/
def lambdaMaxBranch (sqrt : R → R) (bound : R) (p : Slack R) : R :=
  match rationalRoot sqrt p.frob (-2 * p.trace) p.rank p.lmax bound with
  | none => -1
  | some x => if 2 / (p.lmax + p.lmin) ≤ x then x else -1

/-- `InLimits`, `/repo/conex/divergence.cc` 43-45. -/
def inLimits (x lower upper : R) : Bool := decide (lower ≤ x) && decide (x ≤ upper)

/-- `SolveQuadratic`, `/repo/conex/divergence.cc` 48-60: the two solutions, or `none` when the
function returns false. -/
def solveQuadratic (sqrt : R → R) (a b n c : R) : Option (R × R) :=
  let u := b * b + 2 * b * c + c * c - 4 * a * n
  if u < 0 then none else some ((b + c + sqrt u) / (2 * a), (b + c - sqrt u) / (2 * a))

/-- `InverseLambdaMinBranch`, `/repo/conex/divergence.cc` 64-83. -/
def lambdaMinBranch (sqrt : R → R) (bound : R) (p : Slack R) : R :=
  let upper := 2 / (p.lmax + p.lmin)
  match solveQuadratic sqrt (p.frob / p.lmin) (2 * p.trace / p.lmin) (p.rank / p.lmin) bound with
  | none => -1
  | some (x, y) =>
    let k := if inLimits x 0 upper then x else -1
    if inLimits y 0 upper then (if k < y then y else k) else k

/-- `norm_inf` in `BoundIsFinite` and `DivergenceUpperBound`, `/repo/conex/divergence.cc` 86-89,
116-119. -/
def normInf (k : R) (p : Slack R) : R :=
  let a := |k * p.lmax - 1|
  if a < |k * p.lmin - 1| then |k * p.lmin - 1| else a

/-- `BoundIsFinite`, `/repo/conex/divergence.cc` 85-94. -/
def boundIsFinite (k : R) (p : Slack R) : Bool := decide (normInf k p < 1)

/-- `DivergenceUpperBoundInverse`, `/repo/conex/divergence.cc` 96-111. -/
def inverse (sqrt : R → R) (bound : R) (p : Slack R) : R :=
  let k1 := lambdaMinBranch sqrt bound p
  let k2 := lambdaMaxBranch sqrt bound p
  let k := if boundIsFinite k1 p then k1 else -1
  if k < k2 ∧ boundIsFinite k2 p = true then k2 else k

/-- `DivergenceUpperBound`, `/repo/conex/divergence.cc` 113-121. -/
def divergence (k : R) (p : Slack R) : R :=
  (k * k * p.frob - 2 * k * p.trace + p.rank) / (1 - normInf k p)

/-- `MinimizeNormInf`, `/repo/conex/cone_program.cc` 166-172. -/
def minimizeNormInf (p : Slack R) : R :=
  if 0 < p.lmin then 2 / (p.lmin + p.lmax) else -1

/-- `norm_bound` of the fallback in `ComputeMuFromDivergence`, `/repo/conex/cone_program.cc`
195-200. -/
def normBound (p : Slack R) : R :=
  let kstar := p.trace / p.frob
  let nb := 3 / 2 * (p.frob * kstar * kstar - 2 * p.trace * kstar + p.rank)
  if p.rank * (7 / 10) < nb then p.rank * (7 / 10) else nb

/-- The fallback of `ComputeMuFromDivergence`, `/repo/conex/cone_program.cc` 193-211. -/
def normFallback (sqrt : R → R) (p : Slack R) : R :=
  let a := p.frob
  let b := -2 * p.trace
  let c := p.rank - normBound p
  if b * b - 4 * a * c < 0 then p.trace / p.frob
  else (-b + sqrt (b * b - 4 * a * c)) / (2 * a)

/-- `ComputeMuFromDivergence` after the slack eigenvalues are known, `/repo/conex/cone_program.cc`
182-213; `factor` is `config.divergence_upper_bound`. -/
def muFromDivergence (sqrt : R → R) (factor : R) (p : Slack R) : R :=
  let k := inverse sqrt (factor * p.rank) p
  let k := if k = -1 then minimizeNormInf p else k
  if k < 0 ∧ 1 / 10 ^ 12 < p.trace then normFallback sqrt p else k

/-- `GetWeightedSlackEigenvalues` for a program, `/repo/conex/cone_program.cc` 31-57: aggregation of
the data of the constraints.  `rank` is filled in by the caller (line 183) and kept. -/
def aggregate (rank : R) (l : List (Slack R)) : Slack R :=
  l.foldl (fun p t =>
      { p with
        lmax := if p.lmax < t.lmax then t.lmax else p.lmax
        lmin := if t.lmin < p.lmin then t.lmin else p.lmin
        frob := p.frob + t.frob
        trace := p.trace + t.trace })
    { frob := 0, trace := 0, lmax := -30000, lmin := 30000, rank := rank }

/-- The norms of the program level `PrepareStep`, `/repo/conex/cone_program.h` 69-90: aggregation of
`(norminfd, normsqrd)` of the constraints, all of which write their `StepInfo` in a non-affine
step. -/
def aggregateNorm (l : List (R × R)) : R × R :=
  l.foldl (fun p t => (if p.1 < t.1 then t.1 else p.1, p.2 + t.2)) (-1, 0)

end Verif.Divergence
