import Verif.Model.CliqueOrdering

/-!
# Model of the post order computed by `PickCliqueOrder` (conex/clique_ordering.cc 242-257, 319-330)

The optional last argument of `PickCliqueOrder` is a vector, sized by the caller, that receives for
every clique a list of separators. The local variable `count` (lines 320, 329) is never read and is
left out.
-/

namespace Verif.Clique

/-- The loop of `FindSupernode` (clique_ordering.cc 250-256) from position `k` on. The result is the
position and the last value of `intersection`; `none` is the end iterator. -/
def findFrom (separator : List Nat) : Nat → List (List Nat) → Option (Nat × List Nat)
  | _, [] => none
  | k, sn :: sns =>
    if (setInter separator sn).length = separator.length then some (k, setInter separator sn)
    else findFrom separator (k + 1) sns

/-- `FindSupernode` (clique_ordering.cc 242-257). -/
def findSupernode (separator : List Nat) (supernodes : List (List Nat)) :
    Option (Nat × List Nat) :=
  if separator.length = 0 then none else findFrom separator 0 supernodes

/-- Body of the loop of clique_ordering.cc 322-330: `post_order.at` throws if the caller's vector
is too short. -/
def postStep (supernodes : List (List Nat)) (post : List (List (List Nat)))
    (separator : List Nat) : Outcome (List (List (List Nat))) :=
  match findSupernode separator supernodes with
  | none => .ok post
  | some (k, x) =>
    match post[k]? with
    | none => .throws
    | some l => .ok (post.set k (l ++ [x]))

/-- The loop of clique_ordering.cc 322-330 over the separators, in the order of the cliques. -/
def postLoop (supernodes : List (List Nat)) :
    List (List (List Nat)) → List (List Nat) → Outcome (List (List (List Nat)))
  | post, [] => .ok post
  | post, s :: ss => (postStep supernodes post s).bind fun p => postLoop supernodes p ss

/-- `PickCliqueOrder` with a non-null `post_order_pointer` (clique_ordering.cc 307-331). The
vectors of supernodes and separators have one entry for every clique (lines 210-212, 230). -/
def pickCliqueOrderPost (cs : List (List Nat)) (vl : Option (Nat → Bool)) (root : Int)
    (post : List (List (List Nat))) : Outcome (Symbolic × List (List (List Nat))) :=
  (pickCliqueOrder cs vl root).bind fun S =>
    (postLoop ((List.range cs.length).map S.supernodes) post
      ((List.range cs.length).map S.separators)).bind fun p => .ok (S, p)

end Verif.Clique
