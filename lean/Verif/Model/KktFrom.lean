import Verif.Model.SupernodalData

/-!
# Model of the second constructor of the supernodal solver

`SupernodalKKTSolver(cliques, num_vars, order, supernodes, separators)`, `/repo/conex/kkt_solver.cc`
118-130, which takes an elimination order, its supernodes and its separators from the caller instead of
computing them.  Nothing in the repository calls it.
-/

namespace Verif.Sup

open Verif.Clique

/-- `RelabelCliques` on one of the two vectors of labels, `/repo/conex/kkt_solver.cc` 46-68: the first
`cliques.size()` entries are replaced by positions, and the others stay as they are. -/
def relabelFirst (cliques duals : List (List Nat)) (order : List Nat) (labels : List (List Nat)) :
    List (List Int) :=
  relabelAll cliques duals (order.take cliques.length) (labels.take cliques.length) ++
    (labels.drop cliques.length).map fun l => l.map fun v => (v : Int)

/-- The second constructor, `/repo/conex/kkt_solver.cc` 118-130.  `supernodes` and `separators` are
vectors of the length of `order` (precondition), modelled as functions as in `supernodesToData`.  No
dual variables are recorded.  `clique_order.at(e)` and `cliques_.at(j)` throw outside of their range. -/
def kktFrom (cliques : List (List Nat)) (numVars : Nat) (order : List Nat)
    (supernodes separators : Nat → List Nat) : Outcome Kkt :=
  (supernodesToData numVars order supernodes separators).bind fun d =>
  if cliques.length ≤ order.length ∧ (order.take cliques.length).all (· < cliques.length) then
    let duals := List.replicate cliques.length []
    .ok { cliques := cliques
          duals := duals
          data := d
          snPos := relabelFirst cliques duals order d.snLabels
          sepPos := relabelFirst cliques duals order d.sepLabels
          pt := d.permutationInverse.take d.N }
  else .throws

/-- Entry `e` of a vector by clique, read from the vector `labels` of `MatrixData`, which lists the
entries in the elimination order (`/repo/conex/supernodal_solver.cc` 424-425). -/
def byClique (order : List Nat) (labels : List (List Nat)) (e : Nat) : List Nat :=
  labels.getD (order.idxOf e) []

end Verif.Sup
