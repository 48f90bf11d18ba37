import Verif.Model.Outcome
import Mathlib.Algebra.Field.Defs
import Mathlib.Algebra.BigOperators.Group.Finset.Defs
import Mathlib.Algebra.Group.Nat.Defs
import Mathlib.Data.List.Dedup

/-!
# The preprocessing of the MATLAB interface

Model of `/repo/interfaces/matlab/util`: `BuildMask.m`, `BinaryPsdCompletion.m`, `CleanLinear.m`,
`blkdiagPrg.m`, `ExtractConstraintMatrices.m`, `EliminateFreeVars.m`, and the part of `coneBase.m` that they
need.  Programs are in the format of SeDuMi: minimise `c' x` with `A x = b` and `x` in the cone `K`.  The cone
is a product of semidefinite cones (`K.s`); `conex.m` 7-15 refuses the others, and free variables (`K.f`) are
eliminated first.  Indices start at 0 here.  Vectors and matrices are functions, with the dimensions beside
them.
-/

namespace Verif.Matlab

variable {R : Type}

/-- A program: `A` has `m` rows and `N` columns; `s` is `K.s`. -/
structure Prob (R : Type) where
  m : Nat
  N : Nat
  A : Nat → Nat → R
  b : Nat → R
  c : Nat → R
  s : List Nat

/-- The number of entries of a cone, `NumVar`, `/repo/interfaces/matlab/util/coneBase.m` 51. -/
def numVar : List Nat → Nat
  | [] => 0
  | n :: ns => n * n + numVar ns

/-- The position of an entry of a matrix of order `n` in Eigen's and MATLAB's order. -/
def pos (off n i j : Nat) : Nat := off + (i + n * j)

/-! ### `coneBase.Symmetrize` -/

/-- `indxL` and `indxU` for the blocks from `off` on, paired: `CalcIndicesLU`,
`/repo/interfaces/matlab/util/coneBase.m` 132-164.  `tril` lists the lower triangle by columns. -/
def lowerUpper (off : Nat) : List Nat → List (Nat × Nat)
  | [] => []
  | n :: ns =>
    ((List.range n).flatMap fun j => ((List.range n).filter fun i => j ≤ i).map fun i =>
      (pos off n i j, pos off n j i)) ++ lowerUpper (off + n * n) ns

/-- `x(idx) = vals` for lists of the same length: the last assignment counts. -/
def assign (x : Nat → R) : List (Nat × R) → Nat → R
  | [] => x
  | (i, v) :: l => assign (fun k => if k = i then v else x k) l

/-- `Symmetrize`, `/repo/interfaces/matlab/util/coneBase.m` 188-198, for one row, with `K.f = f`.  The free
variables occur in both index lists at the same place. -/
def symmetrizeFrom [Field R] (f : Nat) (s : List Nat) (x : Nat → R) : Nat → R :=
  let lu := (List.range f).map (fun k => (k, k)) ++ lowerUpper f s
  let vals := lu.map fun p => (x p.1 + x p.2) / 2
  assign (assign x ((lu.map Prod.fst).zip vals)) ((lu.map Prod.snd).zip vals)

/-- `Symmetrize` without free variables. -/
def symmetrize [Field R] (s : List Nat) (x : Nat → R) : Nat → R := symmetrizeFrom 0 s x

/-! ### `BinaryPsdCompletion` -/

/-- The `while` loop of `conncomp`, `/repo/interfaces/matlab/util/BinaryPsdCompletion.m` 39-50: `d` is
`isDiscovered`, `mem` is `members{end}`. -/
def grow (N : Nat) (adj : Nat → Nat → Bool) :
    Nat → (Nat → Bool) → List Nat → Nat → Outcome ((Nat → Bool) × List Nat)
  | 0, _, _, _ => .diverges
  | f + 1, d, mem, ptr =>
    match mem[ptr]? with
    | none => .ok (d, mem)
    | some v =>
      let new := (List.range N).filter fun w => adj w v && !d w
      grow N adj f (fun w => d w || new.contains w) (mem ++ new) (ptr + 1)

/-- One pass of the loop over the nodes, `/repo/interfaces/matlab/util/BinaryPsdCompletion.m` 31-52. -/
def discover (N : Nat) (adj : Nat → Nat → Bool) (st : (Nat → Bool) × List (List Nat)) (n : Nat) :
    Outcome ((Nat → Bool) × List (List Nat)) :=
  if st.1 n then .ok st
  else do
    let r ← grow N adj (N + 1) (fun w => st.1 w || w == n) [n] 0
    .ok (r.1, st.2 ++ [r.2])

/-- `conncomp`, `/repo/interfaces/matlab/util/BinaryPsdCompletion.m` 19-62: the third result, ordered by
size. -/
def conncomp (N : Nat) (B : Nat → Nat → Bool) : Outcome (List (List Nat)) := do
  let adj : Nat → Nat → Bool := fun i j => (i != j) && (B i j || B j i)
  let r ← (List.range N).foldlM (discover N adj) (fun _ => false, [])
  .ok (r.2.mergeSort fun a b => a.length ≤ b.length)

/-- `BinaryPsdCompletion`, `/repo/interfaces/matlab/util/BinaryPsdCompletion.m` 1-16, for a matrix of order
`n`. -/
def completion (n : Nat) (B : Nat → Nat → Bool) :
    Outcome ((Nat → Nat → Bool) × List (List Nat)) := do
  let r := (List.range n).filter fun i => (List.range n).any fun j => B i j
  if r = [] then .ok (B, [])
  else do
    let cs ← conncomp r.length fun a b => B (r.getD a 0) (r.getD b 0)
    let cliques := cs.map fun c => c.map fun a => r.getD a 0
    .ok (fun i j => B i j || cliques.any fun c => c.contains i && c.contains j, cliques)

/-! ### `BuildMask` -/

/-- `nnz(M)`. -/
def nnz (N : Nat) (M : Nat → Bool) : Nat := ((List.range N).filter M).length

section
variable [Zero R] [DecidableEq R]

/-- One pass of the loop of `SubspaceClosureCoordDisjointSupport`,
`/repo/interfaces/matlab/util/BuildMask.m` 71-72: the union of the supports of the rows that meet `M`. -/
def spread (P : Prob R) (M : Nat → Bool) : Nat → Bool := fun j =>
  decide (j < P.N) && (List.range P.m).any fun i =>
    ((List.range P.N).any fun k => M k && decide (P.A i k ≠ 0)) && decide (P.A i j ≠ 0)

/-- The loop, `/repo/interfaces/matlab/util/BuildMask.m` 70-78. -/
def closureLoop (P : Prob R) : Nat → (Nat → Bool) → Nat → Outcome (Nat → Bool)
  | 0, _, _ => .diverges
  | f + 1, M, k =>
    let M' := spread P M
    if k ≠ nnz P.N M' then closureLoop P f M' (nnz P.N M')
    else .ok M'

/-- `SubspaceClosureCoordDisjointSupport`, `/repo/interfaces/matlab/util/BuildMask.m` 63-83. -/
def closure (P : Prob R) (M : Nat → Bool) : Outcome (Nat → Bool) :=
  let M0 : Nat → Bool := fun j =>
    ((List.range P.m).any fun i => decide (P.b i ≠ 0) && decide (P.A i j ≠ 0)) || M j
  closureLoop P (P.N + 2) M0 (nnz P.N M0)

/-- The loop over the blocks, `/repo/interfaces/matlab/util/BuildMask.m` 20-26. -/
def completeBlocks : List Nat → Nat → (Nat → Bool) →
    Outcome ((Nat → Bool) × List (List (List Nat)))
  | [], _, M => .ok (M, [])
  | n :: ns, off, M => do
    let t ← completion n fun i j => M (pos off n i j)
    let M' : Nat → Bool := fun k =>
      if off ≤ k ∧ k < off + n * n then t.1 ((k - off) % n) ((k - off) / n) else M k
    let r ← completeBlocks ns (off + n * n) M'
    .ok (r.1, t.2 :: r.2)

/-- The loop `while(1)`, `/repo/interfaces/matlab/util/BuildMask.m` 15-34. -/
def maskLoop (P : Prob R) : Nat → (Nat → Bool) → Nat →
    Outcome ((Nat → Bool) × List (List (List Nat)))
  | 0, _, _ => .diverges
  | f + 1, M, k => do
    let M1 ← closure P M
    let r ← completeBlocks P.s 0 M1
    if k = nnz P.N r.1 then .ok r
    else maskLoop P f r.1 (nnz P.N r.1)

/-- The mask and the cliques, `/repo/interfaces/matlab/util/BuildMask.m` 7-34. -/
def buildMask (P : Prob R) : Outcome ((Nat → Bool) × List (List (List Nat))) :=
  let M : Nat → Bool := fun j => decide (P.c j ≠ 0)
  maskLoop P (P.N + 2) M (nnz P.N M)

/-- `SubMatToIndx`, `/repo/interfaces/matlab/util/coneBase.m` 287-299. -/
def subMatIndex (off n : Nat) (clique : List Nat) : List Nat :=
  ((List.range (n * n)).filter fun k => clique.contains (k % n) && clique.contains (k / n)).map (off + ·)

/-- `indx`, `/repo/interfaces/matlab/util/BuildMask.m` 45-54. -/
def maskIndex : List Nat → Nat → List (List (List Nat)) → List Nat
  | n :: ns, off, cl :: cls =>
    cl.flatMap (subMatIndex off n) ++ maskIndex ns (off + n * n) cls
  | _, _, _ => []

/-- `Kr.s`, `/repo/interfaces/matlab/util/BuildMask.m` 48-54. -/
def maskSizes (cls : List (List (List Nat))) : List Nat :=
  cls.flatMap fun cl => cl.map List.length

/-- `eqKeep`, `/repo/interfaces/matlab/util/CleanLinear.m` 19, without `useQR`. -/
def eqKeep (m N : Nat) (A : Nat → Nat → R) (b : Nat → R) : List Nat :=
  (List.range m).filter fun i =>
    ((List.range N).any fun j => decide (A i j ≠ 0)) || decide (b i ≠ 0)

/-- `CleanLinear`, `/repo/interfaces/matlab/util/CleanLinear.m` 1-30: the kept rows with `A` and `b`. -/
def cleanLinear (P : Prob R) : List Nat × Prob R :=
  let keep := eqKeep P.m P.N P.A P.b
  (keep, { P with m := keep.length, A := fun i => P.A (keep.getD i 0), b := fun i => P.b (keep.getD i 0) })

/-- `BuildMask` and `CleanLinear` in the constructor, `/repo/interfaces/matlab/util/blkdiagPrg.m` 25-28, with
`/repo/interfaces/matlab/util/BuildMask.m` 56-58: `indx`, the kept rows, and the reduced program. -/
def blkdiag (P : Prob R) : Outcome (List Nat × List Nat × Prob R) := do
  let r ← buildMask P
  let indx := maskIndex P.s 0 r.2
  let Pr : Prob R := { P with
    N := indx.length, A := fun i j => P.A i (indx.getD j 0), c := fun j => P.c (indx.getD j 0)
    s := maskSizes r.2 }
  let q := cleanLinear Pr
  .ok (indx, q.1, q.2)

end

/-- The program with symmetric rows and cost, `/repo/interfaces/matlab/util/blkdiagPrg.m` 18-24. -/
def symmetric [Field R] (P : Prob R) : Prob R :=
  { P with A := fun i => symmetrize P.s (P.A i), c := symmetrize P.s P.c }

/-- The constructor `blkdiagPrg`, `/repo/interfaces/matlab/util/blkdiagPrg.m` 17-38. -/
def blkdiagPrg [Field R] [DecidableEq R] (P : Prob R) : Outcome (List Nat × List Nat × Prob R) :=
  blkdiag (symmetric P)

/-- `RecoverPrimal`, `/repo/interfaces/matlab/util/blkdiagPrg.m` 45-48: `sparse` adds the entries with the
same index. -/
def recoverPrimal [AddCommMonoid R] (indx : List Nat) (x : Nat → R) : Nat → R := fun k =>
  ((List.range indx.length).map fun j => if indx.getD j 0 = k then x j else 0).sum

/-- `RecoverDual`, `/repo/interfaces/matlab/util/blkdiagPrg.m` 50-52, with the matrix `T` of
`/repo/interfaces/matlab/util/CleanLinear.m` 27. -/
def recoverDual [AddCommMonoid R] (keep : List Nat) (y : Nat → R) : Nat → R := fun k =>
  ((List.range keep.length).map fun i => if keep.getD i 0 = k then y i else 0).sum

/-! ### `ExtractConstraintMatrices` -/

/-- `find(A)`: row, column and value of the nonzero entries, by columns. -/
def findEntries [Zero R] [DecidableEq R] (m N : Nat) (A : Nat → Nat → R) : List (Nat × Nat × R) :=
  (List.range N).flatMap fun j => ((List.range m).filter fun i => decide (A i j ≠ 0)).map fun i =>
    (i, j, A i j)

/-- The data of a matrix inequality as handed to the solver: `variables`, `matrix_conex_format` (one matrix
for each variable) and `affine`. -/
structure Lmi (R : Type) where
  n : Nat
  vars : List Nat
  mats : Nat → Nat → Nat → R
  affine : Nat → Nat → R

/-- One pass of the first loop, `/repo/interfaces/matlab/util/ExtractConstraintMatrices.m` 11-21: `rest` are
the entries from `s` on, or nothing if `s` is empty.  Returns the entries of the block and the next `rest`.
If no entry of `rest` has `c < col_end` then `e` is empty, and so is `s` from then on. -/
def takeBlock (rest : Option (List (Nat × Nat × R))) (colEnd : Nat) :
    List (Nat × Nat × R) × Option (List (Nat × Nat × R)) :=
  match rest with
  | none => ([], none)
  | some l =>
    match ((List.range l.length).filter fun t => decide (((l.map fun q => q.2.1).getD t 0) < colEnd)).getLast? with
    | none => ([], none)
    | some e => (l.take (e + 1), some (l.drop (e + 1)))

/-- The rest of the function for one block, `/repo/interfaces/matlab/util/ExtractConstraintMatrices.m` 23-48:
`unique` sorts; `sparse` adds entries with the same position. -/
def lmiOf [AddCommMonoid R] (n off : Nat) (entries : List (Nat × Nat × R)) (c : Nat → R) : Lmi R :=
  let vars := ((entries.map fun q => q.1).mergeSort fun a b => a ≤ b).dedup
  { n := n
    vars := vars
    mats := fun v i j => (entries.map fun q =>
      if vars.idxOf q.1 = v ∧ q.2.1 - off = i + n * j then q.2.2 else 0).sum
    affine := fun i j => c (pos off n i j) }

/-- `ExtractConstraintMatrices`, `/repo/interfaces/matlab/util/ExtractConstraintMatrices.m` 1-48, with
`conex_format = 1`, from the block at `off` on. -/
def extractLoop [AddCommMonoid R] (c : Nat → R) :
    List Nat → Nat → Option (List (Nat × Nat × R)) → List (Lmi R)
  | [], _, _ => []
  | n :: ns, off, rest =>
    let t := takeBlock rest (off + n * n)
    lmiOf n off t.1 c :: extractLoop c ns (off + n * n) t.2

/-- `ExtractConstraintMatrices`. -/
def extract [AddCommMonoid R] [DecidableEq R] (P : Prob R) : List (Lmi R) :=
  extractLoop P.c P.s 0 (some (findEntries P.m P.N P.A))

/-! ### Free variables -/

/-- What the functions take from MATLAB: `A\b` and `spnull` (which is not part of the repository); the
arguments start with the numbers of rows and columns. -/
structure LinAlg (R : Type) where
  solve : Nat → Nat → (Nat → Nat → R) → (Nat → R) → Nat → R
  null : Nat → Nat → (Nat → Nat → R) → Nat × (Nat → Nat → R)

section
variable [Field R]

/-- `y0`, `/repo/interfaces/matlab/util/EliminateFreeVars.m` 6-12: `Af` has `f` rows. -/
def freeOffset (la : LinAlg R) (P : Prob R) (f : Nat) : Nat → R :=
  la.solve f P.m (fun j i => P.A i j) P.c

/-- `B`, `/repo/interfaces/matlab/util/EliminateFreeVars.m` 13. -/
def freeBasis (la : LinAlg R) (P : Prob R) (f : Nat) : Nat × (Nat → Nat → R) :=
  la.null f P.m (fun j i => P.A i j)

/-- `EliminateFreeVars`, `/repo/interfaces/matlab/util/EliminateFreeVars.m` 1-18: the first `f` variables are
free. -/
def eliminateFree (la : LinAlg R) (P : Prob R) (f : Nat) : Prob R :=
  let y0 := freeOffset la P f
  let B := freeBasis la P f
  { m := B.1
    N := P.N - f
    A := fun q k => ((List.range P.m).map fun i => P.A i (k + f) * B.2 i q).sum
    b := fun q => ((List.range P.m).map fun i => P.b i * B.2 i q).sum
    c := fun k => P.c (k + f) - ((List.range P.m).map fun i => P.A i (k + f) * y0 i).sum
    s := P.s }

/-- The free variables after the solve, `/repo/interfaces/matlab/util/ConexPreprocess.m` 50-52. -/
def recoverFree (la : LinAlg R) (P : Prob R) (f : Nat) (x : Nat → R) : Nat → R :=
  let xf := la.solve P.m f P.A fun i =>
    P.b i - ((List.range (P.N - f)).map fun k => P.A i (k + f) * x k).sum
  fun k => if k < f then xf k else x (k - f)

/-- The multipliers after the solve, `/repo/interfaces/matlab/util/ConexPreprocess.m` 53. -/
def recoverFreeDual (la : LinAlg R) (P : Prob R) (f : Nat) (y : Nat → R) : Nat → R := fun i =>
  freeOffset la P f i + ((List.range (freeBasis la P f).1).map fun q => (freeBasis la P f).2 i q * y q).sum

variable [DecidableEq R]

/-- `ConexPreprocess`, `/repo/interfaces/matlab/util/ConexPreprocess.m` 18-32: `kf` is the field `K.f`, if
there is one, and `rowCost` says that `c` is a row.  Then `cf` is a row as well, and `Af\cf`
(`/repo/interfaces/matlab/util/EliminateFreeVars.m` 12) is an error unless `Af` has one row.  The result is
that of `blkdiagPrg` with the inequalities for the solver. -/
def preprocess (la : LinAlg R) (P : Prob R) (kf : Option Nat) (rowCost : Bool) :
    Outcome ((List Nat × List Nat × Prob R) × List (Lmi R)) :=
  match kf with
  | none => do
    let r ← blkdiagPrg P
    .ok (r, extract r.2.2)
  | some f =>
    if rowCost && f != 1 then .throws
    else do
      let r ← blkdiagPrg (eliminateFree la P f)
      .ok (r, extract r.2.2)

/-- `ConexPostProcess`, `/repo/interfaces/matlab/util/ConexPreprocess.m` 34-55, for the vector `x` made of the
dual variables. -/
def postprocess (la : LinAlg R) (P : Prob R) (kf : Option Nat) (indx keep : List Nat) (x y : Nat → R) :
    (Nat → R) × (Nat → R) :=
  let f := kf.getD 0
  let xr := recoverPrimal indx x
  let yr := recoverDual keep y
  if 0 < f then (recoverFree la P f xr, recoverFreeDual la P f yr)
  else (xr, yr)

/-- The symmetric program with free variables, `/repo/interfaces/matlab/conex.m` 5-6. -/
def symmetricFrom (f : Nat) (P : Prob R) : Prob R :=
  { P with A := fun i => symmetrizeFrom f P.s (P.A i), c := symmetrizeFrom f P.s P.c }

/-- What `conex.m` does before the solve, `/repo/interfaces/matlab/conex.m` 3-31, with `pars.blkdiag`: the
rows that are kept, the program given to `ConexPreprocess`, and its result.  `Symmetrize(c')` is a row. -/
def conexPre (la : LinAlg R) (P : Prob R) (kf : Option Nat) :
    Outcome (List Nat × Prob R × (List Nat × List Nat × Prob R) × List (Lmi R)) := do
  let q := cleanLinear P
  let P1 := symmetricFrom (kf.getD 0) q.2
  let r ← preprocess la P1 kf true
  .ok (q.1, P1, r)

/-- `conex.m` for a cone with one block, `/repo/interfaces/matlab/conex.m` 3-6 and 46-48: the rows that are
kept and the inequality given to the solver.  The second argument of `reshape` must fit the number of
columns. -/
def conexDense (P : Prob R) (kf : Option Nat) (n : Nat) : Outcome (List Nat × Lmi R) :=
  let q := cleanLinear P
  let P1 := symmetricFrom (kf.getD 0) q.2
  if P1.N = n * n then
    .ok (q.1, { n := n, vars := List.range P1.m, mats := fun v i j => P1.A v (i + n * j)
                affine := fun i j => P1.c (i + n * j) })
  else .throws

/-- What `conex.m` does after the solve, `/repo/interfaces/matlab/conex.m` 65-71. -/
def conexPost (la : LinAlg R) (kf : Option Nat) (rows : List Nat) (P1 : Prob R) (indx keep : List Nat)
    (x y : Nat → R) : (Nat → R) × (Nat → R) :=
  let r := postprocess la P1 kf indx keep x y
  (r.1, recoverDual rows r.2)

end

end Verif.Matlab
