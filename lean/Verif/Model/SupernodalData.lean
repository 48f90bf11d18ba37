import Verif.Model.CliqueOrdering

/-!
# Model of the symbolic data of the supernodal solver

`SupernodesToData` and `GetData` (conex/supernodal_solver.cc), and the constructor of
`SupernodalKKTSolver` (conex/kkt_solver.cc). `std::vector`s are lists; `.at` out of range is
`throws`.
-/

namespace Verif.Sup

open Verif.Clique

/-- `MatrixData` (supernodal_solver.h 18-29). -/
structure MatrixData where
  cliques : List (List Nat)
  snLabels : List (List Nat)
  sepLabels : List (List Nat)
  supernodeSize : List Nat
  permutation : List Nat
  permutationInverse : List Nat
  cliqueOrder : List Nat
  N : Nat
  deriving DecidableEq, Repr

/-- `Relabel` (supernodal_solver.cc 21-28). -/
def relabel (labels : List Nat) : List Nat → Outcome (List Nat)
  | [] => .ok []
  | x :: xs =>
    match labels[x]? with
    | none => .throws
    | some y => (relabel labels xs).bind fun ys => .ok (y :: ys)

/-- The loop of lines 396-403. The two nested loops with the running counter `i` visit the
concatenation of the supernodes; `p` is `permutation`, `q` is `permutation_inverse`. -/
def writePerm : List Nat → Nat → List Nat → List Nat → Outcome (List Nat × List Nat)
  | [], _, p, q => .ok (p, q)
  | v :: vs, i, p, q =>
    if i < q.length ∧ v < p.length then writePerm vs (i + 1) (p.set v i) (q.set i v) else .throws

/-- One pass of the loop of lines 411-428: the separator in original labels, sorted by permuted
position, and the clique in permuted labels. -/
def relabelBlock (p q : List Nat) (sn sep : List Nat) : Outcome (List Nat × List Nat) :=
  (relabel p sep).bind fun temp =>
  (relabel q (sortNat temp)).bind fun sep' =>
  (relabel p (sn ++ sep')).bind fun c => .ok (c, sep')

/-- The loop of lines 411-428. -/
def relabelBlocks (p q : List Nat) (supernodes separators : Nat → List Nat) :
    List Nat → Outcome (List (List Nat × List Nat))
  | [] => .ok []
  | e :: es =>
    (relabelBlock p q (supernodes e) (separators e)).bind fun b =>
    (relabelBlocks p q supernodes separators es).bind fun bs => .ok (b :: bs)

/-- `SupernodesToData` (supernodal_solver.cc 389-431). `supernodes` and `separators` are vectors of
length `n = order.size()` (they always are: C11), modelled as functions; an entry of `order` that
is out of range throws. -/
def supernodesToData (numVars : Nat) (order : List Nat) (supernodes separators : Nat → List Nat) :
    Outcome MatrixData :=
  if order.all (· < order.length) then
    (writePerm (order.flatMap supernodes) 0 (List.replicate numVars 0)
      (List.replicate numVars 0)).bind fun pq =>
    (relabelBlocks pq.1 pq.2 supernodes separators order).bind fun bs =>
      .ok { cliques := bs.map Prod.fst
            snLabels := order.map supernodes
            sepLabels := bs.map Prod.snd
            supernodeSize := order.map fun e => (supernodes e).length
            permutation := pq.1
            permutationInverse := pq.2
            cliqueOrder := order
            N := (order.map fun e => (supernodes e).length).sum }
  else .throws

/-- `GetData` (supernodal_solver.cc 363-387); both overloads. -/
def getData (cliques : List (List Nat)) (validLeaf : Option (Nat → Bool)) (root : Int) :
    Outcome MatrixData :=
  (pickCliqueOrder (cliques.map sortNat) validLeaf root).bind fun S =>
  (getMax cliques).bind fun m =>
  supernodesToData (m + 1) S.order S.supernodes S.separators

/-- The scan of lines 72-80 and 85-92 of kkt_solver.cc: first position of maximum length. -/
def argMaxLength (ls : List (List Nat)) : Nat × Nat :=
  (List.range ls.length).foldl (fun acc i =>
    if acc.2 < (cliqueAt ls i).length then (i, (cliqueAt ls i).length) else acc)
    (0, (cliqueAt ls 0).length)

/-- `GetRootNode` (kkt_solver.cc 70-94). -/
def getRootNode (vars duals : List (List Nat)) : Outcome Nat :=
  if duals = [] then .throws
  else if 0 < (argMaxLength duals).2 then .ok (argMaxLength duals).1
  else if vars = [] then .throws
  else .ok (argMaxLength vars).1

/-- `is_empty` (kkt_solver.cc 96-102). -/
def isEmptyVec (ls : List (List Nat)) : Nat → Bool := fun i => cliqueAt ls i == []

/-- `ReplaceWithPosition` with `label_fill_in = true` (kkt_solver.cc 23-40). -/
def replaceWithPosition (a b : List Nat) : List Int :=
  a.map fun x => if x ∈ b then (b.idxOf x : Int) else -1

/-- `ConcatFirstN` (kkt_solver.cc 11-21) as used in `RelabelCliques` 55-58; `N` never exceeds the
size (`dual_variables` are part of the clique: C02). -/
def cliqueLabels (clique dual : List Nat) : List Nat :=
  clique.take (clique.length - dual.length) ++ dual

/-- State of `SupernodalKKTSolver` after construction (kkt_solver.cc 104-116): the matrix data, and
the label lists of `RelabelCliques` (47-68), one per position in the elimination order. `pt` is the
index vector of the permutation `Pt` (114-115). -/
structure Kkt where
  cliques : List (List Nat)
  duals : List (List Nat)
  data : MatrixData
  snPos : List (List Int)
  sepPos : List (List Int)
  pt : List Nat
  deriving DecidableEq, Repr

/-- Lines 60-66 for all blocks. -/
def relabelAll (cliques duals : List (List Nat)) (order : List Nat) (labels : List (List Nat)) :
    List (List Int) :=
  List.zipWith (fun e l => replaceWithPosition l (cliqueLabels (cliqueAt cliques e) (cliqueAt duals e)))
    order labels

/-- The constructor (kkt_solver.cc 104-116). -/
def kktInit (cliques duals : List (List Nat)) : Outcome Kkt :=
  (getRootNode cliques duals).bind fun root =>
  (getData cliques (some (isEmptyVec duals)) root).bind fun d =>
  .ok { cliques := cliques
        duals := duals
        data := d
        snPos := relabelAll cliques duals d.cliqueOrder d.snLabels
        sepPos := relabelAll cliques duals d.cliqueOrder d.sepLabels
        pt := d.permutationInverse.take d.N }

/-- The dimension check at the start of `Assemble` (kkt_solver.cc 135-138) and of `SolveInPlace`
(222-225); `SizeOfSystem()` and `Pt.rows()` are both `data.N`. -/
def Kkt.checkRows (k : Kkt) (rows : Nat) : Outcome Unit :=
  if rows ≠ k.data.N then .throws else .ok ()

end Verif.Sup
