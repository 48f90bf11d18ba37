import Verif.Model.Soc

/-!
# The quadratic cone constraint with an inner product matrix

Model of `/repo/conex/quadratic_cone_constraint.cc`, `/repo/conex/quadratic_cone_constraint.h` and
`/repo/conex/quadratic_epigraph.cc`: the cone of all `(x₀, x₁)` with `x₀ ≥ (x₁' Q x₁)^{1/2}`.  Scalars are
exact; `sqrt` and `exp` are parameters.  Vectors are `El`s as in `Verif.Soc`.
-/

namespace Verif.QuadCone

open Finset Schur Soc

variable {R : Type} [Field R] [LinearOrder R]

/-- Product of a matrix with `n` columns and a vector. -/
def mulVec (n : Nat) (Q : Nat → Nat → R) (x : Nat → R) (i : Nat) : R := ∑ j ∈ range n, Q i j * x j

/-- `InnerProduct`, `/repo/conex/quadratic_cone_constraint.cc` 30-38, and `SquaredNorm` (13-21) when
`y` is `x`.  `Q = none` is the empty matrix, which stands for the identity. -/
def inner (n : Nat) (Q : Option (Nat → Nat → R)) (x y : Nat → R) : R :=
  match Q with
  | some Q => dot n x (mulVec n Q y)
  | none => dot n x y

/-- `square_root`, `/repo/conex/quadratic_cone_constraint.cc` 23. -/
def squareRoot (sqrt : R → R) (x : R) : R := sqrt |x|

/-- `Norm`, `/repo/conex/quadratic_cone_constraint.cc` 25-28. -/
def norm (sqrt : R → R) (n : Nat) (Q : Option (Nat → Nat → R)) (x : Nat → R) : R :=
  squareRoot sqrt (inner n Q x x)

/-- `QuadraticRepresentation`, `/repo/conex/quadratic_cone_constraint.cc` 40-55; `nsq` and `ip` are the
squared norm of the tail of `x` and its inner product with that of `y`. -/
def quadRep (nsq ip : R) (x y : El R) : El R :=
  let det := x.h * x.h - nsq
  let scale := 2 * (x.h * y.h + ip)
  ⟨scale * x.h - det * y.h, fun i => scale * x.t i + det * y.t i⟩

/-- `Exp`, `/repo/conex/quadratic_cone_constraint.cc` 57-64; `k` is the norm of the tail. -/
def expEl (exp : R → R) (k : R) (x : El R) : El R :=
  ⟨1 / 2 * (exp (x.h + k) + exp (x.h - k)),
    if 0 < k then fun i => x.t i * (1 / 2 * (exp (x.h + k) - exp (x.h - k)) / k) else x.t⟩

/-- `Sqrt`, `/repo/conex/quadratic_cone_constraint.cc` 66-73. -/
def sqrtEl (sqrt : R → R) (k : R) (x : El R) : El R :=
  ⟨1 / 2 * (squareRoot sqrt (x.h + k) + squareRoot sqrt (x.h - k)),
    if 0 < k then
      fun i => x.t i * (1 / 2 * (squareRoot sqrt (x.h + k) - squareRoot sqrt (x.h - k)) / k)
    else x.t⟩

/-- `QuadraticConstraintBase`, `/repo/conex/quadratic_cone_constraint.h` 9-78, for data with `n + 1`
rows and `m` columns: `A` is `(A0_, A1_)` by columns and `C` is `(C0_, C1_)`; `gram` is `A_gram_`.
`epi` tells whether the object is a `QuadraticEpigraph`. -/
structure Con (R : Type) where
  n : Nat
  m : Nat
  Q : Option (Nat → Nat → R)
  A : Nat → El R
  C : El R
  gram : Nat → Nat → R
  epi : Bool

/-- `EvalAtQX` of the base class applied to a vector, `/repo/conex/quadratic_cone_constraint.cc`
97-115. -/
def evalAtQXBase (n : Nat) (Q : Option (Nat → Nat → R)) (A : Nat → El R) (x : Nat → R) (i : Nat) : R :=
  inner n Q (A i).t x

/-- `EvalAtQX` of `QuadraticEpigraph`, `/repo/conex/quadratic_epigraph.cc` 47-62, for a constraint on
`m = n` variables, where `Q` has `n` rows. -/
def evalAtQXEpi (n : Nat) (Q : Option (Nat → Nat → R)) (x : Nat → R) (i : Nat) : R :=
  match Q with
  | some Q => if i < n - 1 then ∑ j ∈ range (n - 1), Q (i + 1) (j + 1) * x (j + 1) else -(1 / 2) * x 0
  | none => 0

/-- `EvalAtQX`, a virtual function. -/
def Con.evalAtQX (o : Con R) (x : Nat → R) (i : Nat) : R :=
  if o.epi then evalAtQXEpi o.n o.Q x i else evalAtQXBase o.n o.Q o.A x i

/-- The constructor, `/repo/conex/quadratic_cone_constraint.h` 13-28: `Initialize` called by the
constructor of the base class is that of the base class, and so is the `EvalAtQX` that it calls
(`/repo/conex/quadratic_cone_constraint.cc` 213-216). -/
def mk (n m : Nat) (Q : Option (Nat → Nat → R)) (A : Nat → Nat → R) (c : Nat → R) (epi : Bool) : Con R :=
  { n := n
    m := m
    Q := Q
    A := col A
    C := ofVec c
    gram := fun i j => evalAtQXBase n Q (col A) (col A j).t i
    epi := epi }

/-- `BuildQ`, `/repo/conex/quadratic_epigraph.cc` 6-13, and lines 96-99 of
`/repo/conex/quadratic_cone_constraint.h`. -/
def buildQ (Qi : Nat → Nat → R) (i j : Nat) : R :=
  match i, j with
  | 0, 0 => 1
  | i + 1, j + 1 => Qi i j
  | _, _ => 0

/-- `BuildA`, `/repo/conex/quadratic_epigraph.cc` 15-24, and lines 102-109 of
`/repo/conex/quadratic_cone_constraint.h`: `v + 2` rows and `v + 1` columns. -/
def buildA (v : Nat) (r j : Nat) : R :=
  if r < 2 then (if j = v then -(1 / 2) else 0)
  else if j < v ∧ r - 2 = j then 1 else 0

/-- `Buildb`, `/repo/conex/quadratic_epigraph.cc` 26-33, and lines 105, 107, 110-111 of
`/repo/conex/quadratic_cone_constraint.h`. -/
def buildb (r : Nat) : R := if r = 0 then 1 else if r = 1 then -1 else 0

/-- The constraint added by `AddQuadraticCostEpigraph`, `/repo/conex/quadratic_cone_constraint.h`
91-118 (`epi` false), and `QuadraticEpigraph(Qi)`, `/repo/conex/quadratic_epigraph.cc` 39-40 (`epi`
true), for a matrix with `v` rows. -/
def epigraph (v : Nat) (Qi : Nat → Nat → R) (epi : Bool) : Con R :=
  mk (v + 1) (v + 1) (some (buildQ Qi)) (buildA v) buildb epi

/-- The part of `WorkspaceSOC` used by this constraint: the scaling point `(*W0, W1)`, the direction
`(d0, temp2_1)`, the tail `temp3_1` of the square root, and its squared norm. -/
structure Ws (R : Type) where
  W : El R
  d : El R
  z : Nat → R
  znsq : R

/-- `SetIdentity`, `/repo/conex/quadratic_cone_constraint.cc` 292-295. -/
def setIdentity (w : Ws R) : Ws R := { w with W := ⟨1, fun _ => 0⟩ }

/-- `ComputeNegativeSlack`, `/repo/conex/quadratic_cone_constraint.cc` 126-134. -/
def negativeSlack (o : Con R) (k : R) (ny : Nat) (y : Nat → R) : Outcome (El R) :=
  if ny ≠ o.m then .ub
  else .ok ⟨(∑ j ∈ range o.m, (o.A j).h * y j) - o.C.h * k,
    fun i => (∑ j ∈ range o.m, (o.A j).t i * y j) - o.C.t i * k⟩

/-- `PrepareStep`, `/repo/conex/quadratic_cone_constraint.cc` 172-211: the workspace, `norminfd` and
`normsqrd`.  `wsqrt_q0` is a reference to `*W0`, so that the first entry of the scaling point is
overwritten, whereas the tail of the square root is stored in `temp3_1`. -/
def prepareStep (sqrt : R → R) (o : Con R) (cWeight : R) (ny : Nat) (y : Nat → R) (w : Ws R) :
    Outcome (Ws R × R × R) := do
  let s ← negativeSlack o cWeight ny y
  let z := sqrtEl sqrt (norm sqrt o.n o.Q w.W.t) w.W
  let znsq := inner o.n o.Q z.t z.t
  let d := quadRep znsq (inner o.n o.Q z.t s.t) z s
  let d : El R := ⟨d.h + 1, d.t⟩
  let k := norm sqrt o.n o.Q d.t
  let ev0 := d.h + k
  let ev1 := d.h - k
  .ok (⟨⟨z.h, w.W.t⟩, d, z.t, znsq⟩, if |ev0| < |ev1| then |ev1| else |ev0|, ev0 * ev0 + ev1 * ev1)

/-- `TakeStep`, `/repo/conex/quadratic_cone_constraint.cc` 218-239. -/
def takeStep (sqrt exp : R → R) (o : Con R) (stepSize : R) (w : Ws R) : Ws R :=
  let d : El R := if stepSize ≠ 1 then ⟨stepSize * w.d.h, fun i => stepSize * w.d.t i⟩ else w.d
  let e := expEl exp (norm sqrt o.n o.Q d.t) d
  let z : El R := ⟨w.W.h, w.z⟩
  { w with W := quadRep w.znsq (inner o.n o.Q z.t e.t) z e, d := e }

/-- `GetWeightedSlackEigenvalues`, `/repo/conex/quadratic_cone_constraint.cc` 137-170. -/
def slackData (sqrt : R → R) (o : Con R) (w : Ws R) (ny : Nat) (y : Nat → R) (cWeight : R)
    (p : Divergence.Slack R) : Outcome (Divergence.Slack R) := do
  let s ← negativeSlack o cWeight ny y
  let z := sqrtEl sqrt (norm sqrt o.n o.Q w.W.t) w.W
  let x := quadRep (inner o.n o.Q z.t z.t) (inner o.n o.Q z.t s.t) z s
  let k := norm sqrt o.n o.Q x.t
  let lmax := -min (x.h + k) (x.h - k)
  let lmin := -max (x.h + k) (x.h - k)
  .ok ⟨lmax * lmax + lmin * lmin, lmax + lmin, lmin, lmax, p.rank⟩

/-- `SchurComplement`, `/repo/conex/quadratic_cone_constraint.cc` 82-95. -/
def schurG (o : Con R) (W0 det : R) (Adw : Nat → R) (init : Bool) (G : Nat → Nat → R) : Nat → Nat → R :=
  fun i j =>
    let g := if init then ((o.A i).h * (o.A j).h - o.gram i j) * -det
      else G i j + det * (o.gram i j - (o.A i).h * (o.A j).h)
    let u := fun i => Adw i + (o.A i).h * W0
    g + u i * u j + u i * u j

/-- The product of the tails of `W` and of the affine term, quadratic_cone_constraint.cc 270-274: with
a matrix, the vector `Q W1` left by `SquaredNorm` (line 253) is used. -/
def wDotC (o : Con R) (W : El R) : R :=
  match o.Q with
  | some Q => dot o.n (mulVec o.n Q W.t) o.C.t
  | none => dot o.n W.t o.C.t

/-- `ConstructSchurComplementSystem`, `/repo/conex/quadratic_cone_constraint.cc` 243-290. -/
def schur (o : Con R) (W : El R) (init : Bool) (s : Sys R) : Outcome (Sys R) :=
  if s.rows ≠ o.m then .ub
  else
    let cdx := inner o.n o.Q o.C.t W.t
    let Adx := o.evalAtQX W.t
    let det := W.h * W.h - inner o.n o.Q W.t W.t
    let G := schurG o W.h det Adx init s.G
    let aw := fun i => Adx i + (o.A i).h * W.h
    let aqc := fun i => det * (o.evalAtQX o.C.t i - (o.A i).h * o.C.h)
    let cqc := det * (inner o.n o.Q o.C.t o.C.t - o.C.h * o.C.h)
    let scale := wDotC o W + o.C.h * W.h
    let AW := fun i => if init then aw i else s.AW i + aw i
    let AQc := fun i => (if init then aqc i else s.AQc i + aqc i) + 2 * aw i * scale
    let cQc := (if init then cqc else s.cQc + cqc) + 2 * (cdx + o.C.h * W.h) * scale
    let wc := if init then scale else s.wc + scale
    .ok { s with
      G := setTopLeft o.m o.m (fun i j => G i j * 2) s.G
      AW := setTop o.m (fun i => AW i * 2) s.AW
      AQc := setTop o.m (fun i => AQc i * 2) s.AQc
      wc := wc * 2
      cQc := cQc * 2 }

end Verif.QuadCone
