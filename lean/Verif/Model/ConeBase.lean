import Verif.Model.Matlab
import Mathlib.Data.List.Sort
import Mathlib.Data.Int.Notation

/-!
# The class `coneBase` of the MATLAB interface

Model of `/repo/interfaces/matlab/util/coneBase.m`.  A cone in the format of SeDuMi is a product of `f` free
variables, `l` nonnegative variables, Lorentz cones of the sizes `q`, rotated Lorentz cones of the sizes `r` and
semidefinite cones of the orders `s`, in this order.  Indices start at 1 here, as they do there.  A row vector is
a function of the index.
-/

namespace Verif.ConeBase

open Verif.Matlab (numVar lowerUpper assign)

/-- The argument `K`: each field may be missing or empty. -/
structure RawCone where
  f : Option (Option Nat)
  l : Option (Option Nat)
  q : Option (List Nat)
  r : Option (List Nat)
  s : Option (List Nat)

/-- The property `K`. -/
structure Cone where
  f : Nat
  l : Nat
  q : List Nat
  r : List Nat
  s : List Nat
  deriving DecidableEq

/-- A field that holds a number, `/repo/interfaces/matlab/util/coneBase.m` 18-24. -/
def cleanScalar : Option (Option Nat) → Nat
  | some (some n) => n
  | _ => 0

/-- A field that holds a vector, `/repo/interfaces/matlab/util/coneBase.m` 26-36: a missing or empty one becomes
the number 0. -/
def cleanVector : Option (List Nat) → List Nat
  | some (n :: ns) => n :: ns
  | _ => [0]

/-- `cleanK`, `/repo/interfaces/matlab/util/coneBase.m` 16-42. -/
def cleanK (K : RawCone) : Cone :=
  ⟨cleanScalar K.f, cleanScalar K.l, cleanVector K.q, cleanVector K.r, cleanVector K.s⟩

/-! ### Where the cones lie -/

/-- `NumVar`, `/repo/interfaces/matlab/util/coneBase.m` 51. -/
def numVars (K : Cone) : Nat := K.f + K.l + K.q.sum + K.r.sum + numVar K.s

/-- `temp(1:end-1)` for `temp = [0,cumsum(sizes)]+1 + offset`, `/repo/interfaces/matlab/util/coneBase.m` 77-78,
84-85 and 92-93. -/
def startsFrom : Nat → List Nat → List Nat
  | _, [] => []
  | off, n :: ns => (off + 1) :: startsFrom (off + n) ns

/-- `any(sizes)`. -/
def anyPos (l : List Nat) : Bool := l.any fun n => n != 0

/-- `K.f + K.l + sum(K.q) + sum(K.r)`, `/repo/interfaces/matlab/util/coneBase.m` 91. -/
def offsetS (K : Cone) : Nat := K.f + K.l + K.q.sum + K.r.sum

/-- `Kstart.f`, `/repo/interfaces/matlab/util/coneBase.m` 65-66. -/
def startF (K : Cone) : List Nat := if K.f = 0 then [] else [1]

/-- `Kend.f`, `/repo/interfaces/matlab/util/coneBase.m` 67. -/
def endF (K : Cone) : List Nat := (startF K).map fun a => a + K.f - 1

/-- `Kstart.l`, `/repo/interfaces/matlab/util/coneBase.m` 70-71. -/
def startL (K : Cone) : List Nat := if K.l = 0 then [] else [K.f + 1]

/-- `Kend.l`, `/repo/interfaces/matlab/util/coneBase.m` 72. -/
def endL (K : Cone) : List Nat := (startL K).map fun a => a + K.l - 1

/-- `Kstart.q`, `/repo/interfaces/matlab/util/coneBase.m` 75-78. -/
def startQ (K : Cone) : List Nat := if anyPos K.q then startsFrom (K.f + K.l) K.q else []

/-- `Kend.q`, `/repo/interfaces/matlab/util/coneBase.m` 79. -/
def endQ (K : Cone) : List Nat := List.zipWith (fun a n => a + n - 1) (startQ K) K.q

/-- `Kstart.r`, `/repo/interfaces/matlab/util/coneBase.m` 82-85. -/
def startR (K : Cone) : List Nat := if anyPos K.r then startsFrom (K.f + K.l + K.q.sum) K.r else []

/-- `Kend.r`, `/repo/interfaces/matlab/util/coneBase.m` 86. -/
def endR (K : Cone) : List Nat := List.zipWith (fun a n => a + n - 1) (startR K) K.r

/-- `Kstart.s`, `/repo/interfaces/matlab/util/coneBase.m` 90-93. -/
def startS (K : Cone) : List Nat :=
  if anyPos K.s then startsFrom (offsetS K) (K.s.map fun n => n * n) else []

/-- `Kend.s`, `/repo/interfaces/matlab/util/coneBase.m` 94. -/
def endS (K : Cone) : List Nat := List.zipWith (fun a n => a + n * n - 1) (startS K) K.s

/-- `a:d:b` for natural numbers and `d > 0`. -/
def colon (a d b : Nat) : List Nat := if a ≤ b then (List.range ((b - a) / d + 1)).map fun k => a + d * k else []

/-- `indxDiag`, `/repo/interfaces/matlab/util/coneBase.m` 89-100. -/
def indxDiag (K : Cone) : List (List Nat) :=
  List.zipWith (fun (ae : Nat × Nat) n => colon ae.1 (n + 1) ae.2) ((startS K).zip (endS K)) K.s

/-- `Kstart.l:Kend.l`, empty if these are. -/
def rangeL (K : Cone) : List Nat := (List.zipWith (fun a b => colon a 1 b) (startL K) (endL K)).flatten

/-- `indxNNeg`, `/repo/interfaces/matlab/util/coneBase.m` 105. -/
def indxNNeg (K : Cone) : List Nat :=
  rangeL K ++ startQ K ++ startR K ++ (startR K).map (· + 1) ++ (indxDiag K).flatten

/-- `AnyConicVars`, `/repo/interfaces/matlab/util/coneBase.m` 122-124. -/
def anyConicVars (K : Cone) : Bool := decide (0 < (indxNNeg K).length)

/-- The second result of `flqrIndx`, `/repo/interfaces/matlab/util/coneBase.m` 257-262. -/
def flqrEnd (K : Cone) : Nat := (endF K ++ endL K ++ endR K ++ endQ K ++ [0]).foldl max 0

/-- `NumFlqrVars`, `/repo/interfaces/matlab/util/coneBase.m` 126-129: `s` is 1. -/
def numFlqrVars (K : Cone) : Int := max 0 ((flqrEnd K : Int) - 1 + 1)

/-- `flqrCols`, `/repo/interfaces/matlab/util/coneBase.m` 249-254: the columns that are kept. -/
def flqrCols (K : Cone) : List Nat := colon 1 1 (flqrEnd K)

/-- `GetIndx('s',num)`, `/repo/interfaces/matlab/util/coneBase.m` 264-275. -/
def getIndxS (K : Cone) (num : Nat) : Outcome (Option (Nat × Nat)) :=
  if startS K = [] then .ok none
  else if num = 0 ∨ (startS K).length < num then .throws
  else .ok (some ((startS K).getD (num - 1) 0, (endS K).getD (num - 1) 0))

/-- `ColIndx`, `/repo/interfaces/matlab/util/coneBase.m` 277-285: `colIndx` is at least 1.  Without semidefinite
cones `startPos` is empty, so that the result is `[[],[]]`. -/
def colIndx (K : Cone) (num col : Nat) : Outcome (Option (Nat × Nat)) := do
  let p ← getIndxS K num
  if p.isNone then
    if K.s.length < num ∨ num = 0 then .throws else .ok none
  else
    let n := K.s.getD (num - 1) 0
    let s := (col - 1) * n + (p.getD (0, 0)).1
    .ok (some (s, s + n - 1))

/-! ### Symmetric matrices -/

/-- `indxL` and `indxU`, paired: `CalcIndicesLU`, `/repo/interfaces/matlab/util/coneBase.m` 132-167.  The entries
are appended here, where the original writes them into vectors of the right length. -/
def lower (K : Cone) : List (Nat × Nat) :=
  if startS K = [] then (colon 1 1 (numVars K)).map fun k => (k, k)
  else (colon 1 1 ((startS K).headD 0 - 1)).map (fun k => (k, k)) ++
    lowerUpper ((startS K).headD 0) (K.s.filter fun n => n != 0)

/-- `LowerTriIndx`, `/repo/interfaces/matlab/util/coneBase.m` 172-176. -/
def lowerTriIndx (K : Cone) : List Nat := (lower K).map Prod.fst

/-- `UpperTriIndx`, `/repo/interfaces/matlab/util/coneBase.m` 181-185. -/
def upperTriIndx (K : Cone) : List Nat := (lower K).map Prod.snd

variable {R : Type} [Field R]

/-- `Symmetrize`, `/repo/interfaces/matlab/util/coneBase.m` 188-198, for one row. -/
def symmetrize (K : Cone) (x : Nat → R) : Nat → R :=
  let vals := List.zipWith (fun i j => (x i + x j) / 2) (lowerTriIndx K) (upperTriIndx K)
  assign (assign x ((lowerTriIndx K).zip vals)) ((upperTriIndx K).zip vals)

/-- `LowerTri`, `/repo/interfaces/matlab/util/coneBase.m` 200-205, for one row. -/
def lowerTri (K : Cone) (x : Nat → R) : List R := (lowerTriIndx K).map x

/-- `UpperTri`, `/repo/interfaces/matlab/util/coneBase.m` 207-212, for one row. -/
def upperTri (K : Cone) (x : Nat → R) : List R := (upperTriIndx K).map x

/-- `mats`, `/repo/interfaces/matlab/util/coneBase.m` 214-220, for one row. -/
def mats (K : Cone) (vals : List R) : Nat → R :=
  let A := assign (fun _ => (0 : R)) ((lowerTriIndx K).zip (vals.map fun v => 1 / 2 * v))
  assign A ((upperTriIndx K).zip (List.zipWith (fun i v => A i + 1 / 2 * v) (upperTriIndx K) vals))

/-- `InitSymmetric`, `/repo/interfaces/matlab/util/coneBase.m` 222-228, for one row. -/
def initSymmetric (K : Cone) (vals : List R) : Nat → R :=
  assign (assign (fun _ => (0 : R)) ((lowerTriIndx K).zip vals)) ((upperTriIndx K).zip vals)

/-- `Desymmetrize`, `/repo/interfaces/matlab/util/coneBase.m` 231-247, for one row. -/
def desymmetrize (K : Cone) (x : Nat → R) : Nat → R :=
  if 0 < K.s.sum then
    let diag := (indxDiag K).flatten
    let temp := assign x (diag.map fun i => (i, x i / 2))
    let rescale := (lowerTriIndx K).filter fun i => (diag.headD 0) ≤ i
    let temp := assign temp (rescale.map fun i => (i, temp i * 2))
    let vals := lowerTri K temp
    assign (fun _ => (0 : R)) ((lowerTriIndx K).zip vals)
  else x

/-! ### `FindMustVanish` -/

/-- `unique` of a vector. -/
def uniq (l : List Nat) : List Nat := (l.insertionSort (· ≤ ·)).dedup

/-- `max(find(starts <= i))` for a row `starts` and a column `i`: the comparison gives a matrix with a row for each
entry of `i`, and `find` numbers its entries by columns. -/
def lastLinear (starts i : List Nat) : Nat :=
  ((List.range (i.length * starts.length)).filter fun t =>
    decide (starts.getD (t / i.length) 0 ≤ i.getD (t % i.length) 0)).foldl (fun m t => max m (t + 1)) 0

/-- The second result of `intersect(a,b)`: the places in `a` of the common values. -/
def interIndex (a b : List Nat) : List Nat := ((uniq a).filter fun v => b.contains v).map fun v => a.idxOf v

/-- The sizes after the reduction. -/
structure NewCone where
  f : Int
  l : Int
  q : List Int
  r : List Int
  s : List Int
  deriving DecidableEq

/-- `Knew = self.K`. -/
def NewCone.of (K : Cone) : NewCone :=
  ⟨K.f, K.l, K.q.map fun n : Nat => (n : Int), K.r.map fun n : Nat => (n : Int), K.s.map fun n : Nat => (n : Int)⟩

/-- `a:d:b` for integers and `d > 0`. -/
def colonInt (a d b : Int) : List Int :=
  if a ≤ b then (List.range (((b - a) / d).toNat + 1)).map fun k : Nat => a + d * (k : Int) else []

/-- The part for free and nonnegative variables, `/repo/interfaces/matlab/util/coneBase.m` 313-321. -/
def vanishFL (K : Cone) (indx : List Nat) (N : NewCone) : NewCone :=
  let N := if startF K = [] then N
    else { N with f := N.f - ((indx.filter fun i => decide (i ≤ (endF K).headD 0)).length : Int) }
  if startL K = [] then N
  else { N with l := N.l - ((indx.filter fun i =>
    decide ((startL K).headD 0 ≤ i) && decide (i ≤ (endL K).headD 0)).length : Int) }

/-- The part for Lorentz cones, `/repo/interfaces/matlab/util/coneBase.m` 323-338.  The variable `K` of line 327
does not exist, so that the loop fails when it makes a pass.  It runs over the columns of a matrix with one
column; `visitEmpty` says whether the column of a matrix without rows is visited. -/
def vanishQ (visitEmpty : Bool) (K : Cone) (indx : List Nat) : Outcome Unit :=
  if startQ K = [] then .ok ()
  else
    let indxQ := indx.filter fun i => decide ((startQ K).headD 0 ≤ i) && decide (i ≤ (endQ K).getLastD 0)
    if indxQ = [] ∧ visitEmpty = false then .ok () else .throws

/-- The part for rotated Lorentz cones, `/repo/interfaces/matlab/util/coneBase.m` 342-362.  Both loops run over the
columns of a matrix with one column: they make one pass, with the whole vector.  The operands of `:` in line 359
are then vectors, of which MATLAB takes the first entries. -/
def vanishR (K : Cone) (indx : List Nat) (z : List Int × NewCone) : Outcome (List Int × NewCone) :=
  if startR K = [] then .ok z
  else
    let indxR := indx.filter fun i => decide ((startR K).headD 0 ≤ i) && decide (i ≤ (endR K).getLastD 0)
    let c := lastLinear (startR K) indxR
    if (startR K).length < c then .throws
    else
      let r1 := if c = 0 then z.2.r else z.2.r.modify (c - 1) (· - 1)
      let cnst1 := interIndex (startR K) indxR
      let cnst2 := interIndex ((startR K).map (· + 1)) indxR
      let cnst := uniq (cnst1 ++ cnst2)
      let both := cnst1.filter fun c => cnst2.contains c
      let r2 := cnst.foldl (fun r c => r.set c 1) r1
      let r3 := both.foldl (fun r c => r.set c 0) r2
      let more := if cnst = [] then []
        else colonInt (((startR K).getD (cnst.headD 0) 0 : Nat) + 2) 1 ((endR K).getD (cnst.headD 0) 0 : Nat)
      .ok (z.1 ++ more, { z.2 with r := r3 })

/-- The part for semidefinite cones, `/repo/interfaces/matlab/util/coneBase.m` 364-390.  `indxD` is a column, so the
loop makes one pass, with the whole vector; of the vectors in lines 378-380 the operator `:` takes the first
entries.  A block of order 0 makes `row` infinite, which `:` refuses. -/
def vanishS (K : Cone) (indx : List Nat) (z : List Int × NewCone) : Outcome (List Int × NewCone) :=
  if startS K = [] then .ok z
  else
    let indxS := indx.filter fun i => decide ((startS K).headD 0 ≤ i) && decide (i ≤ (endS K).getLastD 0)
    let indxD := (uniq (indxDiag K).flatten).filter fun i => indxS.contains i
    if indxD = [] then .ok z
    else
      let c := lastLinear (startS K) indxD
      if (startS K).length < c then .throws
      else
        let offset : Int := ((startS K).getD (c - 1) 0 : Int) - 1
        let n : Int := (K.s.getD (c - 1) 0 : Nat)
        if n = 0 then .throws
        else
          let row := ((indxD.headD 0 : Nat) - offset - 1) / n + 1
          let colStart := n * (row - 1) + 1
          let rc := (colonInt colStart 1 (colStart + n - 1) ++ colonInt row n (n * n)).map (· + offset)
          .ok (z.1 ++ rc, { z.2 with s := z.2.s.modify (c - 1) (· - 1) })

/-- `FindMustVanish`, `/repo/interfaces/matlab/util/coneBase.m` 302-392.  The entries of `indxZero` are in another
order where `union` sorts them. -/
def findMustVanish (visitEmpty : Bool) (K : Cone) (indx : List Nat) : Outcome (List Int × NewCone) :=
  let indx := uniq indx
  let zero : List Int := indx.map fun i : Nat => (i : Int)
  if indx = [] then .ok (zero, NewCone.of K)
  else do
    let _ ← vanishQ visitEmpty K indx
    let z ← vanishR K indx (zero, vanishFL K indx (NewCone.of K))
    vanishS K indx z

end Verif.ConeBase
