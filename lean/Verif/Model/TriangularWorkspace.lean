import Verif.Model.SupernodalData

/-!
# Model of `TriangularMatrixWorkspace` (conex/triangular_matrix_workspace.{h,cc})

The numerical buffer is described by *cells*: entry `(r, c)` of the diagonal block `k`, or of the
off-diagonal block `k` (rows: columns of the supernode, columns: rows of the separator). `addr` gives
the position of a cell in the buffer. C17 shows that different cells have different positions, so
that operations on the buffer can be described by operations on cells.
-/

namespace Verif.Sup

/-- `get_size_aligned` (memory_utils.h 4-12). -/
def aligned (n : Nat) : Nat := if n % 4 ≠ 0 then n + 4 - n % 4 else n

/-- The members of `TriangularMatrixWorkspace` that the solver uses (triangular_matrix_workspace.h
15-57). `inter sn` combines the parallel vectors `column_intersections[sn]` and
`intersection_position[sn]`, after the final `std::reverse` (lines 122-128 of the .cc file). -/
structure Workspace where
  sizes : List Nat
  snodes : List (List Nat)
  seps : List (List Nat)
  N : Nat
  varToSn : List Nat
  varToPos : List Nat
  inter : Nat → List (Nat × List (Nat × Nat))

/-- Lines 108-116: append a pair to the list of clique `cnt`, creating it if the last list belongs
to another clique. The head of the list is `back()`: the vectors are reversed at the end. -/
def addPair (l : List (Nat × List (Nat × Nat))) (cnt : Nat) (p : Nat × Nat) :
    List (Nat × List (Nat × Nat)) :=
  match l with
  | [] => [(cnt, [p])]
  | (c, ps) :: rest => if c = cnt then (c, ps ++ [p]) :: rest else (cnt, [p]) :: (c, ps) :: rest

/-- Inner loop of lines 88-117 for clique `cnt`, from index `i` on. A variable of supernode 0, or out
of range, is an out-of-range access in a release build (the checks are inside `#ifndef NDEBUG`). -/
def sepLoop (varToSn varToPos : List Nat) (cnt : Nat) :
    List Nat → Nat → (Nat → List (Nat × List (Nat × Nat))) →
    Outcome (Nat → List (Nat × List (Nat × Nat)))
  | [], _, t => .ok t
  | v :: vs, i, t =>
    match varToSn[v]?, varToPos[v]? with
    | some (sn + 1), some p =>
      sepLoop varToSn varToPos cnt vs (i + 1) (Clique.upd t sn (addPair (t sn) cnt (p, i)))
    | _, _ => .ub

/-- Outer loop of lines 85-119. -/
def interLoop (varToSn varToPos : List Nat) :
    List (List Nat) → Nat → (Nat → List (Nat × List (Nat × Nat))) →
    Outcome (Nat → List (Nat × List (Nat × Nat)))
  | [], _, t => .ok t
  | s :: ss, cnt, t =>
    (sepLoop varToSn varToPos cnt s 0 t).bind fun t' => interLoop varToSn varToPos ss (cnt + 1) t'

/-- The constructor (triangular_matrix_workspace.cc 37-129). The counters `var`, `cnt`, `i` of the
first loop (52-68) run through the supernodes in order, so that the two look-up tables are the
concatenations below. Precondition: as many sizes as cliques (a shorter list of sizes throws, as
does a clique shorter than its supernode; `resize(size() - 1)` throws if there is no clique). -/
def workspaceInit (path : List (List Nat)) (sizes : List Nat) : Outcome Workspace :=
  if path = [] ∨ sizes.length < path.length ∨
      ¬ (List.zipWith (fun (c : List Nat) s => decide (s ≤ c.length)) path sizes).all id then .throws
  else
    let seps := List.zipWith (fun (c : List Nat) s => c.drop s) path sizes
    let varToSn := (sizes.zipIdx).flatMap fun p => List.replicate p.1 p.2
    let varToPos := sizes.flatMap List.range
    (interLoop varToSn varToPos seps 0 (fun _ => [])).bind fun inter =>
    .ok { sizes := sizes
          snodes := List.zipWith (fun (c : List Nat) s => c.take s) path sizes
          seps := seps
          N := sizes.sum
          varToSn := varToSn
          varToPos := varToPos
          inter := inter }

/-- A cell of the numerical buffer, see the file header. -/
inductive Cell where
  | diag (k r c : Nat)
  | off (k r c : Nat)
  deriving DecidableEq, Repr

/-- `supernode_size.at(k)`. -/
def Workspace.size (w : Workspace) (k : Nat) : Nat := w.sizes.getD k 0

/-- `separators.at(k)`. -/
def Workspace.sep (w : Workspace) (k : Nat) : List Nat := w.seps.getD k []

/-- `SizeOfSupernode` (triangular_matrix_workspace.h 62-64). -/
def Workspace.sizeOfSupernode (w : Workspace) (k : Nat) : Nat := aligned (w.size k * w.size k)

/-- `SizeOfSeparator` (triangular_matrix_workspace.h 66-68). -/
def Workspace.sizeOfSeparator (w : Workspace) (k : Nat) : Nat :=
  aligned (w.size k * (w.sep k).length)

/-- `SizeOf` (triangular_matrix_workspace.h 27-36): first all supernodes, then all separators. -/
def Workspace.sizeOf (w : Workspace) : Nat :=
  ((List.range w.snodes.length).map w.sizeOfSupernode).sum +
  ((List.range w.seps.length).map w.sizeOfSeparator).sum

/-- The running pointer `data` of `Initialize` (triangular_matrix_workspace.cc 131-141) at the
start of pass `k`, relative to `data_start`. -/
def Workspace.base (w : Workspace) (k : Nat) : Nat :=
  ((List.range k).map fun j => w.sizeOfSupernode j + w.sizeOfSeparator j).sum

/-- Position of a cell in the buffer: the blocks are column-major with `size k` rows
(triangular_matrix_workspace.cc 133-141). -/
def Workspace.addr (w : Workspace) : Cell → Nat
  | .diag k r c => w.base k + r + c * w.size k
  | .off k r c => w.base k + w.sizeOfSupernode k + r + c * w.size k

/-- `LookupAddress` (triangular_matrix_workspace.cc 13-33). Out-of-range labels are `ub`. -/
def Workspace.lookupAddress (w : Workspace) (r c : Nat) : Outcome Cell :=
  match w.varToSn[c]?, w.varToSn[r]?, w.varToPos[c]?, w.varToPos[r]? with
  | some node, some nodeR, some j, some i =>
    if node = nodeR then .ok (.diag node i j)
    else if r ∈ w.sep node then .ok (.off node j ((w.sep node).idxOf r))
    else .throws
  | _, _, _, _ => .ub

/-- The order in which `S_S` (triangular_matrix_workspace.cc 156-167), `Scatter` and the update of
the factorisation visit the lower triangle: column by column. The result is `(row, column)`. -/
def lowerPairs {α : Type} : List α → List (α × α)
  | [] => []
  | x :: xs => ((x :: xs).map fun y => (y, x)) ++ lowerPairs xs

/-- `S_S` (triangular_matrix_workspace.cc 156-167): the cells of the lower triangle of the separator. -/
def lookupAll (w : Workspace) : List (Nat × Nat) → Outcome (List Cell)
  | [] => .ok []
  | (r, c) :: ps =>
    (w.lookupAddress r c).bind fun a => (lookupAll w ps).bind fun as => .ok (a :: as)

/-- `seperator_diagonal.at(k)`, see `lookupAll`. -/
def Workspace.sepCells (w : Workspace) (k : Nat) : Outcome (List Cell) :=
  lookupAll w (lowerPairs (w.sep k))

/-- `LookupSuperNode` of supernodal_solver.cc 105-115: the last non-empty supernode that starts at or
before `index`. Reads `snodes` from index `n - 1` down. -/
def lookupSuperNode (snodes : List (List Nat)) (index : Nat) : Nat → Outcome Nat
  | 0 => .throws
  | j + 1 =>
    match (snodes.getD j []) with
    | [] => lookupSuperNode snodes index j
    | x :: _ => if x ≤ index then .ok j else lookupSuperNode snodes index j

/-- `Get` (supernodal_solver.cc 117-137): the cell that holds entry `(i, j)`, `none` for a
structural zero. `path.at(node)` is the supernode followed by the separator. -/
def Workspace.getCell (w : Workspace) (i j : Nat) : Outcome (Option Cell) :=
  if i < j then .ok none
  else
    (lookupSuperNode w.snodes j w.snodes.length).bind fun node =>
    let first := (w.snodes.getD node []).headD 0
    if i - first < w.size node ∧ j - first < w.size node then
      .ok (some (.diag node (i - first) (j - first)))
    else if i ∈ w.sep node then .ok (some (.off node (j - first) ((w.sep node).idxOf i)))
    else .ok none

end Verif.Sup
