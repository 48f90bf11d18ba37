import Verif.Model.Assembler
import Verif.Model.DenseFactor

/-!
# Model of conex/block_triangular_operations.{h,cc}

Block Cholesky and block LDLᵀ of the supernodal matrix, in place, and the block substitutions. The
matrix is a `Store` of cells; C17 shows that different cells are different memory locations.
-/

namespace Verif.Sup

open Finset Verif.Dense

variable {R : Type} [Field R]

/-- `start_i` of the forward iterator after `k` increments (block_triangular_operations.cc 25-36). -/
def Workspace.fwdStart (w : Workspace) : Nat → Nat
  | 0 => 0
  | k + 1 => w.fwdStart k + w.size k

/-- `start_i` of the backward iterator after `t` decrements, at block `n - 1 - t` (lines 70-81). -/
def Workspace.bwdStart (w : Workspace) : Nat → Nat
  | 0 => w.N - w.size (w.sizes.length - 1)
  | t + 1 => w.bwdStart t - w.size (w.sizes.length - 1 - (t + 1))

/-- Start of the backward iterator at block `k`. -/
def Workspace.bwdAt (w : Workspace) (k : Nat) : Nat := w.bwdStart (w.sizes.length - 1 - k)

/-- Replace the segment `[s, s + n)` of a vector. -/
def setSeg (y : Nat → R) (s n : Nat) (z : Nat → R) : Nat → R := fun v =>
  if s ≤ v ∧ v < s + n then z (v - s) else y v

/-- The diagonal block `k`. -/
def diagOf (S : Store R) (k : Nat) : Nat → Nat → R := fun r c => S (.diag k r c)

/-- Write the lower triangle of diagonal block `k`. -/
def setDiagLower (S : Store R) (k n : Nat) (L : Nat → Nat → R) : Store R := fun a =>
  match a with
  | .diag k' r c => if k' = k ∧ r < n ∧ c ≤ r then L r c else S a
  | .off _ _ _ => S a

/-- Replace the off-diagonal block `k` (`n` rows, `m` columns). -/
def setOff (S : Store R) (k n m : Nat) (X : Nat → Nat → R) : Store R := fun a =>
  match a with
  | .diag _ _ _ => S a
  | .off k' r c => if k' = k ∧ r < n ∧ c < m then X r c else S a

/-- Lines 209-215 and 339-345: subtract the products of columns from the cells of the separator.
`cells` and the pairs `(j, k)`, `k ≤ j`, are generated by the same double loop. -/
def subtractProducts (cells : List Cell) (m : Nat) (val : Nat → Nat → R) (S : Store R) : Store R :=
  ((lowerPairs (List.range m)).zip cells).foldl
    (fun S p => S.set p.2 (S p.2 - val p.1.2 p.1.1)) S

/-- One pass of `BlockCholeskyInPlace` (block_triangular_operations.cc 190-217). `none`: the dense
factorisation of the block failed. -/
def cholStep (llt : Nat → (Nat → Nat → R) → Option (Nat → Nat → R)) (w : Workspace) (k : Nat)
    (S : Store R) : Outcome (Option (Store R)) :=
  let n := w.size k
  let m := (w.sep k).length
  if n = 0 then .ok (some S)
  else
    match llt n (diagOf S k) with
    | none => .ok none
    | some L =>
      let S1 := setDiagLower S k n L
      if m = 0 then .ok (some S1)
      else
        let X := fun r c => fsub L n (fun r => S1 (.off k r c)) r
        let S2 := setOff S1 k n m X
        (w.sepCells k).bind fun cells =>
          .ok (some (subtractProducts cells m (fun a b => ∑ r ∈ range n, X r a * X r b) S2))

/-- `BlockCholeskyInPlace` (block_triangular_operations.cc 184-219) after `k` blocks; `none` means
that it has returned `false`. -/
def cholLoop (llt : Nat → (Nat → Nat → R) → Option (Nat → Nat → R)) (w : Workspace) (S : Store R) :
    Nat → Outcome (Option (Store R))
  | 0 => .ok (some S)
  | k + 1 => (cholLoop llt w S k).bind fun o =>
    match o with
    | none => .ok none
    | some S' => cholStep llt w k S'

/-- `BlockCholeskyInPlace`. -/
def blockCholesky (llt : Nat → (Nat → Nat → R) → Option (Nat → Nat → R)) (w : Workspace)
    (S : Store R) : Outcome (Option (Store R)) := cholLoop llt w S w.sizes.length

/-- Lines 173-177 and 279-283: `y(si) -= temp(cnt)` for the separator. -/
def subSep (w : Workspace) (k : Nat) (temp : Nat → R) (y : Nat → R) : Nat → R :=
  (w.sep k).zipIdx.foldl (fun y p => fun v => if v = p.1 then y v - temp p.2 else y v) y

/-- One pass of `ApplyBlockInverseInPlace` (block_triangular_operations.cc 164-180). The last block
has no separator and is solved after the loop in the same way (line 181). -/
def forwardStep (w : Workspace) (S : Store R) (k : Nat) (y : Nat → R) : Nat → R :=
  let n := w.size k
  let s := w.fwdStart k
  if n = 0 then y
  else
    let z := fsub (diagOf S k) n (fun r => y (s + r))
    let y1 := setSeg y s n z
    if k + 1 = w.sizes.length then y1
    else if (w.sep k).length = 0 then y1
    else subSep w k (fun c => ∑ r ∈ range n, S (.off k r c) * y1 (s + r)) y1

/-- `ApplyBlockInverseInPlace` after `k` blocks. -/
def forwardLoop (w : Workspace) (S : Store R) (b : Nat → R) : Nat → Nat → R
  | 0 => b
  | k + 1 => forwardStep w S k (forwardLoop w S b k)

/-- Lines 130-143 (and 235-256): subtract the columns of earlier blocks that belong to the unknowns
of block `i + 1`. `cur` is the block of the iterator `residual`, which only moves down (`Set`, lines
88-98): if `j` were above it, it would stay. -/
def residLoop' (w : Workspace) (S : Store R) (src : Nat → R) :
    List (Nat × List (Nat × Nat)) → Nat → (Nat → R) → Nat → R
  | [], _, y => y
  | (j, ps) :: rest, cur, y =>
    let cur' := min cur j
    let s := w.bwdAt cur'
    let y' := ps.foldl (fun y p => fun v =>
      if s ≤ v ∧ v < s + w.size cur' then y v - S (.off j (v - s) p.2) * src p.1 else y v) y
    residLoop' w S src rest cur' y'

/-- One pass of `ApplyBlockInverseOfTransposeInPlace` (block_triangular_operations.cc 120-146) for
block `k = i + 1`, or the final solve for `k = 0` (lines 147-150). -/
def backwardStep (w : Workspace) (S : Store R) (k : Nat) (y : Nat → R) : Nat → R :=
  let n := w.size k
  let s := w.bwdAt k
  if n = 0 then y
  else
    let z := bsub (diagOf S k) n (fun r => y (s + r))
    let y1 := setSeg y s n z
    match k with
    | 0 => y1
    | i + 1 => residLoop' w S (fun r => z r) (w.inter i) (w.sizes.length - 1) y1

/-- `ApplyBlockInverseOfTransposeInPlace` after `t` blocks, from the last one down. -/
def backwardLoop (w : Workspace) (S : Store R) (b : Nat → R) : Nat → Nat → R
  | 0 => b
  | t + 1 => backwardStep w S (w.sizes.length - 1 - t) (backwardLoop w S b t)

/-- `SolveInPlaceCholesky` (block_triangular_operations.h 39-43). -/
def solveCholesky (w : Workspace) (S : Store R) (b : Nat → R) : Nat → R :=
  backwardLoop w S (forwardLoop w S b w.sizes.length) w.sizes.length

section LDLT

variable [LinearOrder R]

/-- State of `BlockLDLTInPlace`: the matrix, the transpositions of the blocks, the flag that is
returned, and (not in the code) whether a pivot was replaced. -/
structure LdltStore (R : Type) where
  S : Store R
  tr : Nat → List Nat
  ret : Bool
  reg : Bool

/-- One pass of `BlockLDLTInPlace` (block_triangular_operations.cc 322-347). -/
def ldltBlock (w : Workspace) (k : Nat) (F : LdltStore R) : Outcome (LdltStore R) :=
  let n := w.size k
  let m := (w.sep k).length
  (ldlt n (diagOf F.S k)).bind fun f =>
  let S1 := setDiagLower F.S k n f.mat
  let F1 : LdltStore R :=
    { S := S1, tr := Clique.upd F.tr k f.tr, ret := F.ret && f.ret, reg := F.reg || f.reg }
  if n = 0 ∨ m = 0 then .ok F1
  else
    let X := fun r c =>
      fsub (unitLower f.mat) n (fun r => S1 (.off k (permOf f.tr r) c)) r / f.mat r r
    let S2 := setOff S1 k n m X
    (w.sepCells k).bind fun cells =>
      .ok { S := subtractProducts cells m (fun a b => ∑ r ∈ range n, f.mat r r * X r a * X r b) S2
            tr := F1.tr, ret := F1.ret, reg := F1.reg }

/-- `BlockLDLTInPlace` (block_triangular_operations.cc 315-349) after `k` blocks. -/
def ldltBlocks (w : Workspace) (S : Store R) : Nat → Outcome (LdltStore R)
  | 0 => .ok { S := S, tr := fun _ => [], ret := true, reg := false }
  | k + 1 => (ldltBlocks w S k).bind fun F => ldltBlock w k F

/-- `BlockLDLTInPlace`. -/
def blockLdlt (w : Workspace) (S : Store R) : Outcome (LdltStore R) := ldltBlocks w S w.sizes.length

/-- One block of the first loop of `ApplyBlockInverseOfMD` (block_triangular_operations.cc 265-288):
permute, solve, then update the separator (the code does the update of block `i - 1` at the start of
pass `i`, so that it is not done for the last block). -/
def mdStep (w : Workspace) (F : LdltStore R) (k : Nat) (y : Nat → R) : Nat → R :=
  let n := w.size k
  let s := w.fwdStart k
  let z := fsub (unitLower (diagOf F.S k)) n (fun r => y (s + permOf (F.tr k) r))
  let y1 := setSeg y s n z
  if k + 1 = w.sizes.length then y1
  else if n = 0 ∨ (w.sep k).length = 0 then y1
  else subSep w k (fun c => ∑ r ∈ range n, F.S (.off k r c) * y1 (s + r)) y1

/-- The first loop of `ApplyBlockInverseOfMD` after `k` blocks. -/
def mdLoop (w : Workspace) (F : LdltStore R) (b : Nat → R) : Nat → Nat → R
  | 0 => b
  | k + 1 => mdStep w F k (mdLoop w F b k)

/-- The second loop of `ApplyBlockInverseOfMD` (lines 290-299) after `k` blocks: divide by `D`. -/
def diagLoop (w : Workspace) (F : LdltStore R) (y : Nat → R) : Nat → Nat → R
  | 0 => y
  | k + 1 =>
    let y' := diagLoop w F y k
    setSeg y' (w.fwdStart k) (w.size k)
      (fun r => (F.S (.diag k r r))⁻¹ * y' (w.fwdStart k + r))

/-- One block of `ApplyBlockInverseOfMTranspose` (block_triangular_operations.cc 222-263). The update
of the earlier blocks with block `k` happens at the start of the next pass, before that block is
solved. -/
def mtStep (w : Workspace) (F : LdltStore R) (k : Nat) (y : Nat → R) : Nat → R :=
  let n := w.size k
  let s := w.bwdAt k
  let z := bsub (unitLower (diagOf F.S k)) n (fun r => y (s + r))
  let x := fun r => z ((permOf (F.tr k)).symm r)
  let y1 := setSeg y s n x
  match k with
  | 0 => y1
  | i + 1 => residLoop' w F.S (fun r => x r) (w.inter i) (w.sizes.length - 1) y1

/-- `ApplyBlockInverseOfMTranspose` after `t` blocks, from the last one down. -/
def mtLoop (w : Workspace) (F : LdltStore R) (b : Nat → R) : Nat → Nat → R
  | 0 => b
  | t + 1 => mtStep w F (w.sizes.length - 1 - t) (mtLoop w F b t)

/-- `SolveInPlaceLDLT` (block_triangular_operations.h 30-37). -/
def solveLdlt (w : Workspace) (F : LdltStore R) (b : Nat → R) : Nat → R :=
  let n := w.sizes.length
  mtLoop w F (diagLoop w F (mdLoop w F b n) n) n

end LDLT

end Verif.Sup
