import Verif.Model.CApi

/-!
# What the construction calls should tell
-/

namespace Verif.CApi.Spec

variable {R : Type}

/-- `p'` is `p` with the constraint `c`, on as many unknowns as it has variables and multipliers,
added at the end. -/
def Added (p p' : Program R) (c : Con) (vars : List Nat) : Prop :=
  p'.mgr.eqs = p.mgr.eqs ++ [(c, vars.length)] ∧ p'.mgr.cliques = p.mgr.cliques ++ [vars]

/-- A call that should add `c` on all variables and store its identifier tells the truth: either it
reports success, the constraint was added, and the identifier is its position; or it reports failure
and neither the program nor the identifier was touched. -/
def Truthful (h : Option (Program R)) (c : Con) (r : Ret R) : Prop :=
  (r.value = 0 ∧ ∃ p p', h = some p ∧ r.prog = some p' ∧
    Added p p' c (List.range p.mgr.maxVars) ∧ r.id = some (p.mgr.eqs.length : Int)) ∨
  (r.value = 1 ∧ r.prog = h ∧ r.id = none)

/-- The program was built by calls of the interface and not solved yet. -/
def Fresh (p : Program R) : Prop := p.initialized = false ∧ p.workspaces = 0

/-- Any number of solves, with modes and settings chosen by the caller. -/
def solves (p : Program R) : List (Int × Bool) → Program R
  | [] => p
  | (mode, allowed) :: l => solves (p.solve mode allowed) l

end Verif.CApi.Spec
