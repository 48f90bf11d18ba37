import Mathlib.Algebra.Group.Basic
import Verif.Model.SupernodalData

/-!
# Model of the assembly of the right-hand sides

`AssembleSchurComplementResiduals` (conex/constraint_manager.h) and the second half of
`SupernodalKKTSolver::Assemble` (conex/kkt_solver.cc). Scalars are exact.
-/

namespace Verif.Sup

/-- The vectors and scalars of `WorkspaceSchurComplement` (newton_step.h 98-103), without `G`. -/
structure Resid (R : Type) where
  AW : Nat → R
  AQc : Nat → R
  wc : R
  cQc : R

/-- `setZero` (newton_step.h 80-88). -/
def Resid.zero (R : Type) [Zero R] : Resid R := ⟨fun _ => 0, fun _ => 0, 0, 0⟩

/-- The inner loop (constraint_manager.h 116-120; kkt_solver.cc 154-159) over the unknowns of a
constraint, with counter `cnt`. Writing past the `rows` entries of the output is undefined. -/
def addVec {R : Type} [Add R] (rows : Nat) (r : Resid R) :
    List Nat → Nat → Resid R → Outcome (Resid R)
  | [], _, s => .ok s
  | k :: ks, cnt, s =>
    if k < rows then
      addVec rows r ks (cnt + 1) { s with
        AW := Clique.upd s.AW k (s.AW k + r.AW cnt)
        AQc := Clique.upd s.AQc k (s.AQc k + r.AQc cnt) }
    else .ub

/-- `AssembleSchurComplementResiduals` (constraint_manager.h 107-124), the loop over `eqs`; `r i` are
the residuals of constraint `i`. The loop runs over the constraints; there is one clique per
constraint (C01). -/
def residLoop {R : Type} [Add R] (rows : Nat) (r : Nat → Resid R) :
    List (List Nat) → Nat → Resid R → Outcome (Resid R)
  | [], _, s => .ok s
  | c :: cs, i, s =>
    (addVec rows (r i) c 0 { s with wc := s.wc + (r i).wc, cQc := s.cQc + (r i).cQc }).bind
      fun s => residLoop rows r cs (i + 1) s

/-- `AssembleSchurComplementResiduals` (constraint_manager.h 107-124). -/
def assembleResiduals {R : Type} [Zero R] [Add R] (rows : Nat) (cs : List (List Nat))
    (r : Nat → Resid R) : Outcome (Resid R) :=
  residLoop rows r cs 0 (Resid.zero R)

/-- The loop of kkt_solver.cc 150-160 for `e = n - 1, …, 0`. Only one scalar is accumulated. -/
def kktResidLoop {R : Type} [Add R] (rows : Nat) (cs : List (List Nat)) (order : List Nat)
    (r : Nat → Resid R) : Nat → Resid R → Outcome (Resid R)
  | 0, s => .ok s
  | e + 1, s =>
    match order[e]? with
    | none => .throws
    | some i =>
      match cs[i]? with
      | none => .throws
      | some c =>
        (addVec rows (r i) c 0 { s with wc := s.wc + (r i).wc }).bind
          fun s => kktResidLoop rows cs order r e s

/-- `Assemble(AW, AQc, inner_product_of_c_and_w)` (kkt_solver.cc 133-162), the part that concerns the
vectors; `rows` is the length of both vectors. -/
def kktResiduals {R : Type} [Zero R] [Add R] (k : Kkt) (rows : Nat) (r : Nat → Resid R) :
    Outcome (Resid R) :=
  (k.checkRows rows).bind fun _ =>
  kktResidLoop rows k.cliques k.data.cliqueOrder r k.cliques.length (Resid.zero R)

end Verif.Sup
