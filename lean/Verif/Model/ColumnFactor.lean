import Verif.Model.BlockFactor

/-!
# Model of `TriangularMatrixOperations` (conex/supernodal_solver.cc)

The factorisation and the substitutions of the supernodal matrix that work column by column.  `path` is the
member of the same name of `SparseTriangularMatrix` (`/repo/conex/supernodal_solver.h` 64-106), from which the
workspace is built; its member `N`, a separate argument of the constructor, is taken to be the number of
columns of the workspace.
-/

namespace Verif.Sup

variable {R : Type} [Field R]

/-- An entry of `ToDense`, `/repo/conex/supernodal_solver.cc` 264-273. -/
def toDense (w : Workspace) (S : Store R) (i j : Nat) : Outcome R :=
  (w.getCell i j).bind fun o =>
  match o with
  | some a => .ok (S a)
  | none => .ok 0

/-! ### `TriangularMatrixColumnOperations` -/

/-- The members `supernode_index_`, `dense_size`, `column`, `supernode_column_`,
`/repo/conex/supernodal_solver.cc` 97-103.  `dense_size` is negative in the code after a step out of an empty
supernode; the model has stopped by then. -/
structure Col where
  idx : Nat
  dense : Nat
  column : Nat
  sc : Nat
  deriving DecidableEq, Repr

/-- The constructor, `/repo/conex/supernodal_solver.cc` 44-46. -/
def Col.init (w : Workspace) : Outcome Col :=
  match w.sizes[0]? with
  | none => .throws
  | some n => .ok ⟨0, n, 0, 0⟩

/-- `NextColumn`, `/repo/conex/supernodal_solver.cc` 47-56. -/
def Col.next (w : Workspace) (p : Col) : Outcome Col :=
  match w.sizes[p.idx]? with
  | none => .throws
  | some n =>
    if n ≤ p.sc + 1 then
      match w.sizes[p.idx + 1]? with
      | none => .throws
      | some n' => .ok ⟨p.idx + 1, n', p.column + 1, 0⟩
    else .ok ⟨p.idx, p.dense - 1, p.column + 1, p.sc + 1⟩

/-- `Diagonal`, `/repo/conex/supernodal_solver.cc` 65-68. -/
def Col.diagonal (w : Workspace) (S : Store R) (p : Col) : Outcome R :=
  if p.sc < w.size p.idx then .ok (S (.diag p.idx p.sc p.sc)) else .ub

/-- `Rescale`, `/repo/conex/supernodal_solver.cc` 58-63: all rows of the column, and the row of the
separator. -/
def Col.rescale (w : Workspace) (S : Store R) (p : Col) (scale : R) : Outcome (Store R) :=
  if p.sc < w.size p.idx then
    .ok fun a => match a with
      | .diag k _ c => if k = p.idx ∧ c = p.sc then S a * scale else S a
      | .off k r _ => if k = p.idx ∧ r = p.sc then S a * scale else S a
  else .ub

/-- `SubtractWeightedColumn`, `/repo/conex/supernodal_solver.cc` 71-82.  The two parts of the column have no
row in common with each other. -/
def Col.subtract (w : Workspace) (S : Store R) (p : Col) (b : Nat → R) (y : R) : Nat → R :=
  let n := w.size p.idx
  let b1 : Nat → R := fun v =>
    if p.column ≤ v ∧ v < p.column + p.dense then
      b v - y * S (.diag p.idx (n - p.dense + (v - p.column)) p.sc)
    else b v
  (w.sep p.idx).zipIdx.foldl
    (fun b q => fun v => if v = q.1 then b v - y * S (.off p.idx p.sc q.2) else b v) b1

/-- `NonzeroRows`, `/repo/conex/supernodal_solver.cc` 84-95. -/
def Col.rows (w : Workspace) (p : Col) : List Nat :=
  ((List.range' 1 (p.dense - 1)).map fun i => p.column + i) ++ w.sep p.idx

/-! ### `LowerTriangularSuperNodal` -/

/-- `LookupSuperNode`, `/repo/conex/supernodal_solver.cc` 165-172: the last front that starts at or before
`index`; the fronts are searched from the last one down, and `at(0)` throws for an empty front. -/
def lookupFirst (path : List (List Nat)) (index : Nat) : Nat → Outcome Nat
  | 0 => .throws
  | j + 1 =>
    match path.getD j [] with
    | [] => .throws
    | x :: _ => if x ≤ index then .ok j else lookupFirst path index j

/-- The cell found by `Get` and `Increment` in the front `node`, `/repo/conex/supernodal_solver.cc` 181-192
and 208-225.  For an empty supernode the entry of the separator does not exist. -/
def cellIn (w : Workspace) (path : List (List Nat)) (node i j : Nat) : Outcome (Option Cell) :=
  let front := path.getD node []
  let first := front.headD 0
  let n := w.size node
  if i - first < n ∧ j - first < n then .ok (some (.diag node (i - first) (j - first)))
  else if i ∈ front.drop n then
    if j - first < n then .ok (some (.off node (j - first) ((front.drop n).idxOf i))) else .ub
  else .ok none

/-- `Get`, `/repo/conex/supernodal_solver.cc` 174-194. -/
def pathGet (w : Workspace) (path : List (List Nat)) (S : Store R) (i j : Nat) : Outcome R :=
  if i < j then .ok 0
  else (lookupFirst path j path.length).bind fun node =>
    (cellIn w path node i j).bind fun o =>
    match o with
    | some a => .ok (S a)
    | none => .ok 0

variable [DecidableEq R]

/-- `Increment`, `/repo/conex/supernodal_solver.cc` 196-228, with the default argument; the assertion of line
200 does nothing in release builds. -/
def pathIncrement (w : Workspace) (path : List (List Nat)) (S : Store R) (val : R) (i j : Nat) :
    Outcome (Store R) :=
  if val = 0 then .ok S
  else if i < j then .ub
  else (lookupFirst path j path.length).bind fun node =>
    (cellIn w path node i j).bind fun o =>
    match o with
    | some a => .ok (S.set a (S a + val))
    | none => .throws

/-! ### `TriangularMatrixOperations` -/

/-- The loop over `j`, `/repo/conex/supernodal_solver.cc` 298-301, in column `x`. -/
def updateInner (w : Workspace) (path : List (List Nat)) (i x : Nat) (weight : R) :
    List Nat → Store R → Outcome (Store R)
  | [], S => .ok S
  | y :: ys, S =>
    (pathGet w path S y i).bind fun g =>
    (pathIncrement w path S (weight * g) y x).bind fun S' => updateInner w path i x weight ys S'

/-- The loop over `k`, `/repo/conex/supernodal_solver.cc` 295-302. -/
def updateOuter (w : Workspace) (path : List (List Nat)) (i : Nat) : List Nat → Store R → Outcome (Store R)
  | [], S => .ok S
  | x :: xs, S =>
    (pathGet w path S x i).bind fun g =>
    (updateInner w path i x (-g) (x :: xs) S).bind fun S' => updateOuter w path i xs S'

/-- `sqrt_d` and `Rescale`, `/repo/conex/supernodal_solver.cc` 288-289 and 304-305. -/
def normalize (sqrt : R → R) (w : Workspace) (S : Store R) (p : Col) : Outcome (Store R × Col) :=
  (p.diagonal w S).bind fun d => (p.rescale w S (1 / sqrt d)).bind fun S' => .ok (S', p)

/-- `CholeskyInPlace`, `/repo/conex/supernodal_solver.cc` 285-307, after `i` passes of the loop. -/
def colCholLoop (sqrt : R → R) (w : Workspace) (path : List (List Nat)) (S : Store R) :
    Nat → Outcome (Store R × Col)
  | 0 => (Col.init w).bind fun p => normalize sqrt w S p
  | i + 1 =>
    (colCholLoop sqrt w path S i).bind fun st =>
    (updateOuter w path i (st.2.rows w) st.1).bind fun S' =>
    (st.2.next w).bind fun p => normalize sqrt w S' p

/-- `CholeskyInPlace`.  It has no result, and pivots are not tested. -/
def columnCholesky (sqrt : R → R) (w : Workspace) (path : List (List Nat)) (S : Store R) :
    Outcome (Store R) :=
  (colCholLoop sqrt w path S (w.N - 1)).bind fun st => .ok st.1

omit [DecidableEq R]

/-- `ApplyInverse`, `/repo/conex/supernodal_solver.cc` 334-354, after `i` passes of the loop: `res`, `y` and
the column. -/
def colForwardLoop (w : Workspace) (S : Store R) (b : Nat → R) : Nat → Outcome ((Nat → R) × (Nat → R) × Col)
  | 0 => (Col.init w).bind fun p => (p.diagonal w S).bind fun d =>
      .ok (b, fun v => if v = 0 then b 0 / d else 0, p)
  | i + 1 =>
    (colForwardLoop w S b i).bind fun st =>
    let res := st.2.2.subtract w S st.1 (st.2.1 i)
    (st.2.2.next w).bind fun p => (p.diagonal w S).bind fun d =>
      .ok (res, fun v => if v = i + 1 then res (i + 1) / d else st.2.1 v, p)

/-- `ApplyInverse`. -/
def columnForward (w : Workspace) (S : Store R) (b : Nat → R) : Outcome (Nat → R) :=
  (colForwardLoop w S b (w.N - 1)).bind fun st => .ok st.2.1

/-- The loop over `j`, `/repo/conex/supernodal_solver.cc` 326-328: `res(j) -= L(row, j) y`. -/
def transposeInner (w : Workspace) (path : List (List Nat)) (S : Store R) (row : Nat) (y : R) :
    List Nat → (Nat → R) → Outcome (Nat → R)
  | [], res => .ok res
  | j :: js, res =>
    (pathGet w path S row j).bind fun g =>
      transposeInner w path S row y js fun v => if v = j then res j - g * y else res v

/-- `ApplyInverseOfTranspose`, `/repo/conex/supernodal_solver.cc` 316-332, after `t` passes of the loop, of
which the last one was for row `n - 1 - t`. -/
def colBackwardLoop (w : Workspace) (path : List (List Nat)) (S : Store R) (n : Nat) (b : Nat → R) :
    Nat → Outcome ((Nat → R) × (Nat → R))
  | 0 => if n = 0 then .ub
      else (pathGet w path S (n - 1) (n - 1)).bind fun g =>
        .ok (b, fun v => if v = n - 1 then b (n - 1) / g else 0)
  | t + 1 =>
    (colBackwardLoop w path S n b t).bind fun st =>
    let i := n - 2 - t
    (transposeInner w path S (i + 1) (st.2 (i + 1)) (List.range (i + 1)) st.1).bind fun res =>
    (pathGet w path S i i).bind fun g =>
      .ok (res, fun v => if v = i then res i / g else st.2 v)

/-- `ApplyInverseOfTranspose`. -/
def columnBackward (w : Workspace) (path : List (List Nat)) (S : Store R) (b : Nat → R) : Outcome (Nat → R) :=
  (colBackwardLoop w path S w.N b (w.N - 1)).bind fun st => .ok st.2

end Verif.Sup
