import Verif.Model.Outcome
import Verif.Model.SortedSets

/-!
# Model of conex/clique_ordering.cc and conex/tree_utils.cc

`std::vector`s indexed by clique or by variable (`visited`, `tree.parent`, `tree.height`,
`separators`, `eliminated`) are modelled as functions on `Nat`. That all indices used are in range
is part of the proved invariant (`PInv.lt` in `Verif/Lemmas/CliqueOrdering.lean`), except for the
root passed by the caller, whose out-of-range use is an explicit outcome here.
-/

namespace Verif.Clique

/-- Point update of a vector. -/
def upd {α : Type} (f : Nat → α) (i : Nat) (a : α) : Nat → α := fun k => if k = i then a else f k

/-- Clique `i` of the list, empty if out of range (never used out of range). -/
def cliqueAt (cs : List (List Nat)) (i : Nat) : List Nat := (cs[i]?).getD []

/-- `Weight::get_weight` (clique_ordering.cc 92-108). The memo table `intersections` is a cache of
`IntersectionOfSorted`, which is symmetric on sorted lists; the model recomputes.
`validLeaf = none` is the empty vector. -/
def getWeight (cs : List (List Nat)) (validLeaf : Option (Nat → Bool)) (active i : Nat) : Nat :=
  let w := (setInter (cliqueAt cs active) (cliqueAt cs i)).length
  match validLeaf with
  | none => w
  | some vl => w + (if vl i then 0 else 10000) + (if vl active then 0 else 10000)

/-- Body of the loop that looks for the unvisited neighbours of maximum weight
(clique_ordering.cc 151-164). The state is `(max_weight, argmax)`. -/
def argmaxStep (cs : List (List Nat)) (vl : Option (Nat → Bool)) (visited : Nat → Bool)
    (active : Nat) (st : Nat × List Nat) (i : Nat) : Nat × List Nat :=
  if i = active then st
  else
    let w := getWeight cs vl active i
    if st.1 ≤ w ∧ visited i = false then
      if st.1 < w then (w, [i]) else (st.1, st.2 ++ [i])
    else st

/-- The loop of clique_ordering.cc 149-164. -/
def argmax (cs : List (List Nat)) (vl : Option (Nat → Bool)) (visited : Nat → Bool)
    (active : Nat) : List Nat :=
  ((List.range cs.length).foldl (argmaxStep cs vl visited active) (1, [])).2

/-- The state of `PickCliqueOrderHelper`. `order` is in push order (line 199 reverses it). -/
structure PState where
  stack : List Nat
  visited : Nat → Bool
  order : List Nat
  parent : Nat → Nat
  height : Nat → Nat
  sep : Nat → List Nat
  edges : List (Nat × Nat)

/-- Lines 141-146: the top of the stack is a new root if it was not visited. -/
def visitTop (s : PState) (active : Nat) : PState :=
  if s.visited active = false then
    { s with
      order := s.order ++ [active]
      visited := upd s.visited active true
      parent := upd s.parent active active
      height := upd s.height active 0 }
  else s

/-- One pass of the loop body 166-179, for child `e` of `active`. -/
def pushChild (cs : List (List Nat)) (active : Nat) (s : PState) (e : Nat) : PState :=
  { stack := e :: s.stack
    visited := upd s.visited e true
    order := s.order ++ [e]
    parent := upd s.parent e active
    height := upd s.height e (s.height active + 1)
    sep := upd s.sep e (setInter (cliqueAt cs active) (cliqueAt cs e))
    edges := s.edges ++ [(active, e)] }

/-- Lines 166-179: the loop over `argmax`, left early after a clique that must not be a leaf. -/
def pushChildren (cs : List (List Nat)) (vl : Option (Nat → Bool)) (active : Nat) :
    PState → List Nat → PState
  | s, [] => s
  | s, e :: es =>
    let s' := pushChild cs active s e
    match vl with
    | some v => if v e then pushChildren cs vl active s' es else s'
    | none => pushChildren cs vl active s' es

/-- `GetUnvisited` (clique_ordering.cc 36-45). -/
def getUnvisited (n : Nat) (visited : Nat → Bool) : Option Nat :=
  (List.range n).find? (fun i => visited i == false)

/-- One pass of the `while` loop (clique_ordering.cc 139-191). `none` means `break`. The stack is
never empty here (`top()` of an empty stack would be undefined): invariant `PInv.stack_ne`. -/
def pickStep (cs : List (List Nat)) (vl : Option (Nat → Bool)) (s : PState) : Option PState :=
  match s.stack with
  | [] => none
  | active :: rest =>
    let s := visitTop s active
    let am := argmax cs vl s.visited active
    match am with
    | [] =>
      match rest with
      | [] =>
        match getUnvisited cs.length s.visited with
        | none => none
        | some node => some { s with stack := [node] }
      | _ :: _ => some { s with stack := rest }
    | _ :: _ => some (pushChildren cs vl active s am)

/-- When the loop is left by `break` the current pass has still changed the state. -/
def pickBreakState (s : PState) : PState :=
  match s.stack with
  | [] => s
  | active :: _ => visitTop s active

/-- The `while (order->size() < n)` loop (clique_ordering.cc 138-192) with fuel; `none` when the
fuel is used up. -/
def pickLoop (cs : List (List Nat)) (vl : Option (Nat → Bool)) : Nat → PState → Option PState
  | 0, s => if s.order.length < cs.length then none else some s
  | fuel + 1, s =>
    if s.order.length < cs.length then
      match pickStep cs vl s with
      | none => some (pickBreakState s)
      | some s' => pickLoop cs vl fuel s'
    else some s

/-- Initial state (clique_ordering.cc 122-136; tree_utils.h 13-18). -/
def pickInit (root : Nat) : PState :=
  { stack := [root], visited := fun _ => false, order := [], parent := fun _ => 0,
    height := fun _ => 0, sep := fun _ => [], edges := [] }

/-- `PickCliqueOrderHelper` up to line 192, for a root in range. `2 n + 1` passes are enough:
`pickHelper_isSome`. -/
def pickHelper (cs : List (List Nat)) (vl : Option (Nat → Bool)) (root : Nat) : Option PState :=
  pickLoop cs vl (2 * cs.length + 1) (pickInit root)

/-- `GetMaxWeightedDegreeNode` (clique_ordering.cc 62-75) and the choice of the first maximum
(lines 194-197). -/
def betterRoot (cs : List (List Nat)) (edges : List (Nat × Nat)) : Nat :=
  let weights : Nat → Nat := edges.foldl (fun w e =>
    let k := (setInter (cliqueAt cs e.1) (cliqueAt cs e.2)).length
    let w1 := upd w e.1 (w e.1 + k)
    upd w1 e.2 (w1 e.2 + k)) (fun _ => 0)
  (List.range cs.length).foldl (fun best i => if weights best < weights i then i else best) 0

/-- Result of the first phase. `order` is the elimination order (leaves first). -/
structure TreeOrder where
  order : List Nat
  parent : Nat → Nat
  height : Nat → Nat
  sep : Nat → List Nat
  sn : Nat → List Nat

/-- Lines 199 and 230-239: reverse the order and take supernodes as differences. -/
def finishOrder (cs : List (List Nat)) (s : PState) : TreeOrder :=
  { order := s.order.reverse
    parent := s.parent
    height := s.height
    sep := s.sep
    sn := fun e => setDiff (cliqueAt cs e) (s.sep e) }

/-- `GetCliqueEliminationOrder` (clique_ordering.cc 203-240). A root that is neither `-1` nor a
clique index makes `visited.at(active)` throw (line 141; for other negative values line 126 uses
clique 0; with `n = 0` the loop is not entered). `diverges` is unreachable, see
`pickHelper_isSome`. -/
def getCliqueEliminationOrder (cs : List (List Nat)) (vl : Option (Nat → Bool)) (root : Int) :
    Outcome TreeOrder :=
  if cs.length ≠ 0 ∧ (cs.length : Int) ≤ root then .throws
  else
    match pickHelper cs vl root.toNat with
    | none => .diverges
    | some s =>
      if root = -1 then
        if cs.length ≠ 0 ∧ cs.length ≤ betterRoot cs s.edges then .throws
        else
          match pickHelper cs vl (betterRoot cs s.edges) with
          | none => .diverges
          | some s' => .ok (finishOrder cs s')
      else .ok (finishOrder cs s)

/-- `PathInTree` (tree_utils.cc 11-25) with fuel. -/
def pathInTree (parent height : Nat → Nat) : Nat → Nat → Nat → Option (List Nat)
  | 0, x, y => if x = y then some [x] else none
  | fuel + 1, x, y =>
    if x = y then some [x]
    else if height x < height y then
      (pathInTree parent height fuel x (parent y)).map (y :: ·)
    else
      (pathInTree parent height fuel (parent x) y).map (x :: ·)

/-- State of `FillIn`: `eliminated` and the separators. -/
structure FState where
  elim : Nat → Nat
  sep : Nat → List Nat

/-- Body of the inner loop of `FillIn` (clique_ordering.cc 277-289) for clique `c` and variable
`v`. After `height c + height y` moves both ends of the path are roots; if they still differ the
loop runs forever (`diverges`). -/
def fillStep (t : TreeOrder) (c : Nat) (st : FState) (v : Nat) : Outcome FState :=
  if st.elim v < t.order.length then
    match pathInTree t.parent t.height (t.height c + t.height (st.elim v)) c (st.elim v) with
    | none => .diverges
    | some path =>
      .ok { elim := upd st.elim v (path.getLastD c)
            sep := path.dropLast.foldl (fun sp e => upd sp e (setUnion (sp e) [v])) st.sep }
  else .ok { st with elim := upd st.elim v c }

/-- Inner loop over the variables of one supernode (lines 277-289). -/
def fillClique (t : TreeOrder) (c : Nat) : FState → List Nat → Outcome FState
  | st, [] => .ok st
  | st, v :: vs => (fillStep t c st v).bind fun st' => fillClique t c st' vs

/-- Outer loop (lines 276-290). -/
def fillLoop (t : TreeOrder) : FState → List Nat → Outcome FState
  | st, [] => .ok st
  | st, c :: cs => (fillClique t c st (t.sn c)).bind fun st' => fillLoop t st' cs

/-- What `PickCliqueOrder` returns, plus the tree (kept for stating properties). -/
structure Symbolic where
  order : List Nat
  supernodes : Nat → List Nat
  separators : Nat → List Nat
  parent : Nat → Nat

/-- `FillIn` (clique_ordering.cc 261-305). The initial value `num_cliques + 1` of `eliminated`
means "not eliminated". -/
def fillIn (t : TreeOrder) (numVars : Nat) : Outcome Symbolic :=
  (fillLoop t { elim := fun _ => t.order.length + 1, sep := t.sep } t.order).bind fun st =>
    .ok { order := t.order
          supernodes := fun e =>
            sortNat ((List.range numVars).filter
              (fun v => decide (st.elim v < t.order.length) && (st.elim v == e)))
          separators := fun e => sortNat (st.sep e)
          parent := t.parent }

/-- `GetMax` (clique_ordering.cc 16-26): throws if there is no clique or the first is empty. -/
def getMax (cs : List (List Nat)) : Outcome Nat :=
  match cs with
  | [] => .throws
  | c :: _ =>
    match c with
    | [] => .throws
    | x :: _ => .ok (cs.flatten.foldl (fun m a => if m < a then a else m) x)

/-- `PickCliqueOrder` (clique_ordering.cc 307-317); the optional post order is
`pickCliqueOrderPost` (Model/PostOrder). -/
def pickCliqueOrder (cs : List (List Nat)) (vl : Option (Nat → Bool)) (root : Int) :
    Outcome Symbolic :=
  (getCliqueEliminationOrder cs vl root).bind fun t =>
    (getMax cs).bind fun m => fillIn t (m + 1)

end Verif.Clique
