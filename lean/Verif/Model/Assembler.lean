import Mathlib.Algebra.Group.Basic
import Verif.Model.TriangularWorkspace

/-!
# Model of the assembly of the linear system

`SupernodalAssemblerBase` (conex/supernodal_assembler.{h,cc}), `DoBind` (conex/supernodal_solver.h),
`Assemble` and `KKTMatrix` (conex/kkt_solver.cc). The numerical buffer is a function from cells to
scalars; C17 shows that distinct cells are distinct memory locations. Scalars are exact.
-/

namespace Verif.Sup

/-- Contents of the numerical buffer. -/
abbrev Store (R : Type) := Cell → R

/-- Write one cell. -/
def Store.set {R : Type} (st : Store R) (a : Cell) (x : R) : Store R :=
  fun b => if b = a then x else st b

/-- `GetCoeff` (supernodal_assembler.cc 59-70). A negative label means fill-in. `G` is the dense
matrix the constraint computes; only its lower triangle is read. -/
def getCoeff {R : Type} [Zero R] (G : Nat → Nat → R) (i j : Int) : R :=
  if i < 0 ∨ j < 0 then 0
  else if j ≤ i then G i.toNat j.toNat else G j.toNat i.toNat

/-- `SetLowerTri` (supernodal_assembler.cc 50-57) on the diagonal block `e`. -/
def setLowerTri {R : Type} [Zero R] (G : Nat → Nat → R) (e : Nat) (labels : List Int)
    (st : Store R) : Store R :=
  (lowerPairs labels.zipIdx).foldl
    (fun st p => st.set (.diag e p.1.2 p.2.2) (getCoeff G p.1.1 p.2.1)) st

/-- `Set` (supernodal_assembler.cc 41-48) on the off-diagonal block `e`. -/
def setBlock {R : Type} [Zero R] (G : Nat → Nat → R) (e : Nat) (rows cols : List Int)
    (st : Store R) : Store R :=
  cols.zipIdx.foldl (fun st c =>
    rows.zipIdx.foldl (fun st r => st.set (.off e r.2 c.2) (getCoeff G r.1 c.1)) st) st

/-- `data.setZero()` on the off-diagonal block `e` (supernodal_assembler.cc 119-123). -/
def zeroBlock {R : Type} [Zero R] (e rows cols : Nat) (st : Store R) : Store R :=
  (List.range cols).foldl (fun st c =>
    (List.range rows).foldl (fun st r => st.set (.off e r c) 0) st) st

/-- `SetDenseData` when `G` has been mapped onto the diagonal block `e` (supernodal_assembler.cc
89-92, 114): entry `(r, c)` of the constraint's matrix goes to entry `(r, c)` of the block. -/
def setDense {R : Type} (G : Nat → Nat → R) (e m : Nat) (st : Store R) : Store R :=
  (List.range m).foldl (fun st c =>
    (List.range m).foldl (fun st r => st.set (.diag e r c) (G r c)) st) st

/-- `Scatter` (supernodal_assembler.cc 103-111). The vector of pointers has one entry per pair:
both are generated by the same double loop. -/
def scatter {R : Type} [Zero R] [Add R] (G : Nat → Nat → R) (labels : List Int) (cells : List Cell)
    (st : Store R) : Store R :=
  ((lowerPairs labels).zip cells).foldl
    (fun st p => st.set p.2 (st p.2 + getCoeff G p.1.1 p.1.2)) st

/-- The blocks bound to the assembler of one constraint (supernodal_assembler.h 96-101). A diagonal
or off-diagonal block is represented by its position in the elimination order and its labels; all
of them have `assign = 1` (`BuildBlock`, 12-35). -/
structure Bound where
  numVars : Nat
  direct : Bool
  diag : List (Nat × List Int)
  off : List (Nat × List Int × List Int)
  scatter : List (List Int × List Cell)
  deriving DecidableEq, Repr

/-- The loop of supernodal_assembler.cc 81-86. -/
def strictlyIncreasing : List Int → Bool
  | x :: y :: l => decide (x < y) && strictlyIncreasing (y :: l)
  | _ => true

/-- `BindDiagonalBlock` (supernodal_assembler.cc 72-93). -/
def Bound.bindDiagonal (b : Bound) (e : Nat) (labels : List Int) : Outcome Bound :=
  if b.diag ≠ [] then .throws
  else .ok { b with
    diag := [(e, labels)]
    direct := if b.numVars = labels.length then strictlyIncreasing labels else b.direct }

/-- The body of the loop of `DoBind` (supernodal_solver.h 42-61) for the assembler `b` of the
constraint at position `e`. -/
def bindOne (w : Workspace) (e : Nat) (sn sep : List Int) (b : Bound) : Outcome Bound :=
  (w.sepCells e).bind fun cells =>
  (if sn ≠ [] then b.bindDiagonal e sn else .ok b).bind fun b =>
  let b := if sep ≠ [] ∧ sn ≠ [] then { b with off := b.off ++ [(e, sn, sep)] } else b
  let b := if cells ≠ [] then { b with scatter := b.scatter ++ [(sep, cells)] } else b
  .ok b

/-- The loop of `DoBind` (supernodal_solver.h 42-61) for `e = n - 1, …, 0`. -/
def bindLoop (k : Kkt) (w : Workspace) : Nat → (Nat → Bound) → Outcome (Nat → Bound)
  | 0, t => .ok t
  | e + 1, t =>
    match k.data.cliqueOrder[e]?, k.snPos[e]?, k.sepPos[e]? with
    | some i, some sn, some sep =>
      (bindOne w e sn sep (t i)).bind fun b => bindLoop k w e (Clique.upd t i b)
    | _, _, _ => .throws

/-- `DoBind` (supernodal_solver.h 36-62) on fresh assemblers, one per clique, whose number of
variables is the size of the clique. -/
def doBind (k : Kkt) (w : Workspace) : Outcome (Nat → Bound) :=
  bindLoop k w k.cliques.length fun i =>
    { numVars := (Clique.cliqueAt k.cliques i).length
      direct := false
      diag := []
      off := []
      scatter := [] }

/-- `UpdateBlocks` (supernodal_assembler.cc 113-165) in a release build. -/
def updateBlocks {R : Type} [Zero R] [Add R] (G : Nat → Nat → R) (b : Bound) (st : Store R) :
    Store R :=
  if b.direct then
    let st := b.diag.foldl (fun st d => setDense G d.1 b.numVars st) st
    b.off.foldl (fun st d => zeroBlock d.1 d.2.1.length d.2.2.length st) st
  else
    let st := b.diag.foldl (fun st d => setLowerTri G d.1 d.2 st) st
    let st := b.off.foldl (fun st d => setBlock G d.1 d.2.1 d.2.2 st) st
    b.scatter.foldl (fun st d => scatter G d.1 d.2 st) st

/-- `Assemble` (kkt_solver.cc 164-170; the same loop is in 141-144). `G i` is the matrix of
constraint `i`. -/
def assembleLoop {R : Type} [Zero R] [Add R] (order : List Nat) (G : Nat → Nat → Nat → R)
    (b : Nat → Bound) : Nat → Store R → Outcome (Store R)
  | 0, st => .ok st
  | e + 1, st =>
    match order[e]? with
    | none => .throws
    | some i => assembleLoop order G b e (updateBlocks (G i) (b i) st)

/-- Construct the workspace, bind and assemble: what `Initialize` and the first `Assemble` do to a
buffer with arbitrary contents `st`. -/
def assemble {R : Type} [Zero R] [Add R] (k : Kkt) (G : Nat → Nat → Nat → R) (st : Store R) :
    Outcome (Workspace × Store R) :=
  (workspaceInit k.data.cliques k.data.supernodeSize).bind fun w =>
  (doBind k w).bind fun b =>
  (assembleLoop k.data.cliqueOrder G b k.cliques.length st).bind fun st => .ok (w, st)

/-- `ToDense` (supernodal_solver.cc 264-273) read through `selfadjointView<Lower>`. -/
def denseSym {R : Type} [Zero R] (w : Workspace) (st : Store R) (i j : Nat) : Outcome R :=
  (w.getCell (max i j) (min i j)).bind fun o =>
  match o with
  | some a => .ok (st a)
  | none => .ok 0

/-- Entry `(u, v)` of `KKTMatrix` (kkt_solver.cc 265-269): `Pt * G * Pt^T`, where `Pt` sends position
`i` to `pt[i]`. -/
def kktMatrix {R : Type} [Zero R] (k : Kkt) (w : Workspace) (st : Store R) (u v : Nat) : Outcome R :=
  denseSym w st (k.pt.idxOf u) (k.pt.idxOf v)

end Verif.Sup
