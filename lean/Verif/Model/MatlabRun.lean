import Verif.Model.Matlab
import Verif.Model.ConeBase
import Verif.Model.CApi

/-!
# The MATLAB function `conex` and the class `ConexProgram`

Model of `/repo/interfaces/matlab/conex.m` as a whole and of `/repo/interfaces/matlab/util/ConexProgram.m`, on top of
the models of the preprocessing (`Verif.Matlab`), of the class `coneBase` (`Verif.ConeBase`) and of the C interface
(`Verif.CApi`).  The solver itself is a parameter.  `A` and `b` have the same number of rows
(`/repo/interfaces/matlab/util/CleanLinear.m` 3-5) and `b` is a column.  Errors of MATLAB are `throws`.
-/

namespace Verif.Matlab

open Verif.ConeBase (RawCone cleanK cleanVector)

variable {R : Type}

/-! ### The arguments -/

/-- `IsNontrivialField` in the condition of an `if`, `/repo/interfaces/matlab/conex.m` 80-89: a vector of numbers
is true if all of them are. -/
def isNontrivial : Option (List Nat) → Bool
  | none => false
  | some [] => false
  | some l => l.all fun n => decide (0 < n)

/-- A field with a number as a vector. -/
def scalarField (v : Option (Option Nat)) : Option (List Nat) := v.map Option.toList

/-- `pars`: each field may be missing. -/
structure Pars where
  errors : Option Bool
  blkdiag : Option Bool

/-- `pars.errors` and `pars.blkdiag` with the defaults of `/repo/interfaces/matlab/conex.m` 17-21; `none` says
that `conex` is called without `pars`. -/
def parsOf (pars : Option Pars) (s : List Nat) : Pars :=
  pars.getD ⟨some false, some (decide (1 < s.length))⟩

/-- A field that must be there. -/
def field (v : Option Bool) : Outcome Bool :=
  match v with
  | none => .throws
  | some b => .ok b

/-- The number of variables between the free ones and the matrices. -/
def midVars (K : RawCone) : Nat := (cleanK K).l + (cleanK K).q.sum + (cleanK K).r.sum

/-- `K.q + K.r > 0` in the condition of an `if`, `/repo/interfaces/matlab/util/BuildMask.m` 3: rows of different
lengths cannot be added, unless one of them is a number. -/
def maskRefuses (q r : List Nat) : Outcome Bool :=
  if q.length = r.length then .ok ((List.zipWith (· + ·) q r).all fun n => decide (0 < n))
  else if q.length = 1 then .ok (r.all fun n => decide (0 < q.headD 0 + n))
  else if r.length = 1 then .ok (q.all fun n => decide (0 < n + r.headD 0))
  else .throws

/-! ### The preprocessing with variables before the matrices -/

section
variable [Zero R] [DecidableEq R]

/-- The loop of `/repo/interfaces/matlab/util/BuildMask.m` 15-34, with `pre` variables before the matrices. -/
def maskLoopAt (pre : Nat) (P : Prob R) : Nat → (Nat → Bool) → Nat →
    Outcome ((Nat → Bool) × List (List (List Nat)))
  | 0, _, _ => .diverges
  | f + 1, M, k => do
    let M1 ← closure P M
    let r ← completeBlocks P.s pre M1
    if k = nnz P.N r.1 then .ok r
    else maskLoopAt pre P f r.1 (nnz P.N r.1)

/-- `BuildMask` (`/repo/interfaces/matlab/util/BuildMask.m` 7-58) and `CleanLinear` as in `blkdiag`, with `pre`
variables before the matrices: those in the mask come first in `indx`. -/
def blkdiagAt (pre : Nat) (P : Prob R) : Outcome (List Nat × List Nat × Prob R) := do
  let M : Nat → Bool := fun j => decide (P.c j ≠ 0)
  let r ← maskLoopAt pre P (P.N + 2) M (nnz P.N M)
  let indx := (List.range pre).filter r.1 ++ maskIndex P.s pre r.2
  let Pr : Prob R := { P with
    N := indx.length, A := fun i j => P.A i (indx.getD j 0), c := fun j => P.c (indx.getD j 0)
    s := maskSizes r.2 }
  let q := cleanLinear Pr
  .ok (indx, q.1, q.2)

/-- `ExtractConstraintMatrices` (`/repo/interfaces/matlab/util/ExtractConstraintMatrices.m`) does not assign its
result if there are no blocks. -/
def extractOut [AddCommMonoid R] (Q : Prob R) : Outcome (List (Lmi R)) :=
  if Q.s = [] then .throws else .ok (extract Q)

end

section
variable [Field R] [DecidableEq R]

/-- The constructor `blkdiagPrg`, `/repo/interfaces/matlab/util/blkdiagPrg.m` 17-38. -/
def blkdiagPrgAt (K : RawCone) (P : Prob R) : Outcome (List Nat × List Nat × Prob R) := do
  let no ← maskRefuses (cleanK K).q (cleanK K).r
  if no then .throws else blkdiagAt (midVars K) (symmetricFrom (midVars K) P)

/-- `ConexPreprocess`, `/repo/interfaces/matlab/util/ConexPreprocess.m` 18-32, called with a row `c`; see
`preprocess`. -/
def preprocessAt (la : LinAlg R) (P : Prob R) (K : RawCone) :
    Outcome ((List Nat × List Nat × Prob R) × List (Lmi R)) :=
  match K.f with
  | none => do
    let r ← blkdiagPrgAt K P
    let Ls ← extractOut r.2.2
    .ok (r, Ls)
  | some v =>
    if v.getD 0 ≠ 1 then .throws
    else do
      let r ← blkdiagPrgAt K (eliminateFree la P 1)
      let Ls ← extractOut r.2.2
      .ok (r, Ls)

/-! ### `ConexProgram` -/

/-- An object of the class `ConexProgram`: the program of the C library, the data of its constraints, and the
property `constraints`. -/
structure Handle (R : Type) where
  prog : CApi.Program R
  lmis : List (Lmi R)
  ids : List Int

/-- What the library does: from the number of variables, the constraints and the cost, the status, `y`, and the
dual variables. -/
abbrev Solver (R : Type) := Nat → List (Lmi R) → (Nat → R) → Bool × (Nat → R) × (Nat → Nat → R)

/-- `VerifyLMIData`, `/repo/interfaces/matlab/util/ConexProgram.m` 12-24, for `A` and `c` of the given numbers of
rows and columns: `[m, n]`.  In MATLAB `mod(a, 0)` is `a`.  With `n = 0` the number `m` is `0/0`, which is passed
on as a C `int`: not defined here. -/
def verifyLmiData (Ar Ac cr cc : Nat) : Outcome (Nat × Nat) :=
  if cc ≠ cr then .throws
  else if Ac % cr ≠ 0 then .throws
  else if Ar ≠ cr then .throws
  else if cr = 0 then .ub
  else .ok (Ac / cr, cr)

/-- The constructor, `/repo/interfaces/matlab/util/ConexProgram.m` 28-39: the status of
`CONEX_SetNumberOfVariables` is dropped.  Numbers that are not a C `int` are not modelled. -/
def newProgram (m : Nat) : Outcome (Handle R) :=
  if 2 ^ 31 ≤ m then .ub
  else do
    let r ← CApi.setVariables (some (CApi.Program.new 0 : CApi.Program R)) m
    .ok ⟨r.prog.getD (CApi.Program.new 0), [], []⟩

/-- `AddDenseLinearMatrixInequality`, `/repo/interfaces/matlab/util/ConexProgram.m` 69-75: the matrices of `L` in a
row are `A`, and `L.vars` is not used. -/
def addDense (h : Handle R) (L : Lmi R) : Outcome (Handle R) := do
  let d ← verifyLmiData L.n (L.n * L.vars.length) L.n L.n
  let r ← CApi.addDenseLmi h.prog d.2 d.1
  let p := r.prog.getD h.prog
  .ok ⟨p, if p.count = h.prog.count then h.lmis else h.lmis ++ [L], h.ids ++ [r.value]⟩

/-- `AddSparseLinearMatrixInequality`, `/repo/interfaces/matlab/util/ConexProgram.m` 77-84. -/
def addSparse (h : Handle R) (L : Lmi R) : Outcome (Handle R) := do
  let d ← verifyLmiData L.n (L.n * L.vars.length) L.n L.n
  let r ← CApi.addSparseLmi h.prog d.2 (L.vars.map Int.ofNat)
  let p := r.prog.getD h.prog
  .ok ⟨p, if p.count = h.prog.count then h.lmis else h.lmis ++ [L], h.ids ++ [r.value]⟩

/-- The loop of `/repo/interfaces/matlab/conex.m` 39-44. -/
def addAll : List (Lmi R) → Handle R → Outcome (Handle R)
  | [], h => .ok h
  | L :: Ls, h => do
    let h' ← addSparse h L
    addAll Ls h'

/-- `Maximize`, `/repo/interfaces/matlab/util/ConexProgram.m` 86-100, with `GetDualVariable` (62-67): the status, `y`
and the cells `x` with the numbers of their entries.  The solver reads the matrices of every variable of a
constraint without a check of their number, and the library does not check the number of a constraint. -/
def maximize (sol : Solver R) (h : Handle R) (m : Nat) (b : Nat → R) :
    Outcome (Bool × (Nat → R) × List (Nat × (Nat → R))) :=
  let p := h.prog.maximize ((List.range m).map b) 0 false
  if p.mgr.eqs.map Prod.snd ≠ h.lmis.map fun L => L.vars.length then .ub
  else
    let o := sol p.mgr.maxVars h.lmis fun i => -(p.linearCost.getD i 0)
    if h.ids.all fun id => decide (0 ≤ id ∧ id < h.lmis.length) then
      .ok (o.1, o.2.1, h.ids.map fun id =>
        ((h.lmis.map fun L => L.n * L.n).getD id.toNat 0, o.2.2 id.toNat))
    else .ub

/-! ### `conex` -/

/-- The fields of `CONEX_SolverConfiguration`, `/repo/interfaces/conex.h` 10-30. -/
def structFields : List String :=
  ["prepare_dual_variables", "initialization_mode", "inv_sqrt_mu_max", "minimum_mu", "maximum_mu",
    "divergence_upper_bound", "enable_line_search", "dinf_upper_bound", "final_centering_steps",
    "final_centering_tolerance", "initial_centering_steps_warmstart", "initial_centering_steps_coldstart",
    "warmstart_abort_threshold", "max_iterations", "iterative_refinement_iterations", "infeasibility_threshold",
    "kkt_error_tolerance", "enable_rescaling", "kkt_solver"]

/-- The fields that `/repo/interfaces/matlab/conex.m` 51-57 assigns. -/
def assignedFields : List String :=
  ["inv_sqrt_mu_max", "infeasibility_threshold", "max_iteration", "prepare_dual_variables",
    "divergence_upper_bound", "prepare_dual_variables", "final_centering_steps"]

/-- The assignments of `/repo/interfaces/matlab/conex.m` 51-57.  `strict` says that a `libstruct` object refuses
fields that its C structure does not have, as MATLAB documents it; otherwise such an assignment has no effect. -/
def setOptions (strict : Bool) : Outcome Unit :=
  if strict && !(assignedFields.all fun f => structFields.contains f) then .throws else .ok ()

/-- The variable `problem`, `/repo/interfaces/matlab/conex.m` 30-35: the length of `problem.b`, `problem.b`,
`problem.K.s`, and what `ConexPreprocess` made. -/
structure Problem (R : Type) where
  m : Nat
  b : Nat → R
  s : List Nat
  reduced : Option ((List Nat × List Nat × Prob R) × List (Lmi R))

/-- `/repo/interfaces/matlab/conex.m` 30-35. -/
def makeProblem (la : LinAlg R) (P1 : Prob R) (K : RawCone) (blk : Bool) : Outcome (Problem R) :=
  if blk then do
    let r ← preprocessAt la P1 K
    .ok ⟨r.1.2.2.m, r.1.2.2.b, r.1.2.2.s, some r⟩
  else .ok ⟨P1.m, P1.b, P1.s, none⟩

/-- The inequality of `/repo/interfaces/matlab/conex.m` 46-48, made of the rows themselves. -/
def denseLmi (P1 : Prob R) (n : Nat) : Lmi R :=
  { n := n, vars := List.range P1.m, mats := fun v i j => P1.A v (i + n * j)
    affine := fun i j => P1.c (i + n * j) }

/-- `/repo/interfaces/matlab/conex.m` 37-49.  `reshape` must keep the number of entries. -/
def build (P1 : Prob R) (p : Problem R) : Outcome (Handle R) := do
  let h ← newProgram p.m
  if 1 < P1.s.length then
    match p.reduced with
    | none => .throws
    | some r => addAll r.2 h
  else
    match p.s with
    | [] => .throws
    | n :: _ => if P1.N = n * n then addDense h (denseLmi P1 n) else .throws

/-- The loop of `/repo/interfaces/matlab/util/ConexPreprocess.m` 40-47: `x(s:e-1) = xcell{i}(:)`.  A single number
may be assigned to any range. -/
def assemble [Zero R] : List Nat → Nat → List (Nat × (Nat → R)) → (Nat → R) → Outcome (Nat → R)
  | [], _, _, x => .ok x
  | _ :: _, _, [], _ => .throws
  | n :: ns, off, c :: cs, x =>
    if c.1 = n * n ∨ c.1 = 1 then
      assemble ns (off + n * n) cs fun t =>
        if off ≤ t ∧ t < off + n * n then (if c.1 = n * n then c.2 (t - off) else c.2 0) else x t
    else .throws

/-- `/repo/interfaces/matlab/conex.m` 65-70. -/
def finish (la : LinAlg R) (P1 : Prob R) (K : RawCone) (p : Problem R) (y : Nat → R)
    (cells : List (Nat × (Nat → R))) : Outcome ((Nat → R) × (Nat → R)) :=
  match p.reduced with
  | some r => do
    let x ← assemble p.s 0 cells fun _ => 0
    .ok (postprocess la P1 (K.f.map fun v => v.getD 0) r.1.1 r.1.2.1 x y)
  | none =>
    match cells with
    | [] => .throws
    | c :: _ => .ok (c.2, y)

/-- The result of `conex`: `x`, `y`, and the fields `pinf` and `dinf` of `info`. -/
structure Result (R : Type) where
  x : Nat → R
  y : Nat → R
  pinf : Bool
  dinf : Bool

/-- `/repo/interfaces/matlab/conex.m` 3-15: the rows that are kept, and the symmetric program.  `Symmetrize` reads
the columns of all variables of the cone. -/
def setup (P : Prob R) (K : RawCone) : Outcome (List Nat × Prob R) :=
  if P.N < ConeBase.numVars (cleanK K) then .throws
  else if isNontrivial (scalarField K.l) then .throws
  else if isNontrivial K.r then .throws
  else if isNontrivial K.q then .throws
  else
    let q := cleanLinear P
    .ok (q.1, symmetricFrom ((cleanK K).f + midVars K) q.2)

/-- `/repo/interfaces/matlab/conex.m` 73-76: `c` is a row by then (line 6), so `c'*x` is the product of a column with
a column, which fits only if there is one variable. -/
def checkErrors (N : Nat) (e : Bool) : Outcome Unit := if e && N != 1 then .throws else .ok ()

/-- `conex`, `/repo/interfaces/matlab/conex.m` 1-76, for the vector `s` in `K.s`. -/
def conexOn (la : LinAlg R) (sol : Solver R) (strict : Bool) (P : Prob R) (K : RawCone) (pars : Option Pars)
    (s : List Nat) : Outcome (Result R) := do
  let q ← setup { P with s := s } K
  let blk ← field (parsOf pars s).blkdiag
  let p ← makeProblem la q.2 K blk
  let h ← build q.2 p
  let _ ← setOptions strict
  let o ← maximize sol h p.m p.b
  let z ← finish la q.2 K p o.2.1 o.2.2
  let e ← field (parsOf pars s).errors
  let _ ← checkErrors P.N e
  .ok ⟨z.1, recoverDual q.1 z.2, !o.1, !o.1⟩

/-- `conex`.  A missing or empty field `K.s` is an error (lines 20, 38 and 46, or line 31 of
`/repo/interfaces/matlab/util/ConexPreprocess.m`).  The field `s` of `P` is not used. -/
def conex (la : LinAlg R) (sol : Solver R) (strict : Bool) (P : Prob R) (K : RawCone) (pars : Option Pars) :
    Outcome (Result R) :=
  match K.s with
  | none => .throws
  | some [] => .throws
  | some s => conexOn la sol strict P K pars s

end

end Verif.Matlab
