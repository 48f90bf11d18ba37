import Verif.Spec.HermitianLmi
import Verif.Model.Updates

/-!
# Specification of coefficient updates (C43, C44)
-/

namespace Verif.Updates.Spec

variable {R : Type} [Field R]

/-- The coefficient of variable `v` at row `r`, column `c`, component `k` of a Hermitian constraint;
missing matrices are zero. -/
def opCoeff {d n : Nat} (o : HermLmi.Con d n R) (v : Nat) (k : Fin d) (r c : Fin n) : R :=
  match o.mats[v]? with
  | some A => A k r c
  | none => 0

/-- The coefficient of the affine term. -/
def affCoeff {d n : Nat} (o : HermLmi.Con d n R) (k : Fin d) (r c : Fin n) : R :=
  match o.affine with
  | some C => C k r c
  | none => 0

/-- The coefficient of variable `v` in row `r` of a second-order cone; missing columns are zero. -/
def socCoeff (o : Soc.Con R) (r v : Nat) : R := if v < o.m then o.A r v else 0

/-- The affine term of a second-order cone. -/
def socAff (o : Soc.Con R) (r : Nat) : R := if r < o.rowsC then o.c r else 0

/-- All matrices of all Hermitian constraints are Hermitian. -/
def AllHermitian (p : List (Any R)) : Prop :=
  ∀ d n o, Any.hermitian d n o ∈ p → HermLmi.Spec.HermitianData o

/-- The calls of a user. -/
inductive Call (R : Type)
  | operator (i : Int) (val : R) (var r c dim : Int)
  | affine (i : Int) (val : R) (r c dim : Int)
  | cost (i : Int) (val : R) (r c : Int)

/-- What a call does. -/
def Call.run [DecidableEq R] (p : List (Any R)) : Call R → Outcome (Int × List (Any R))
  | .operator i val var r c dim => cOperator p i val var r c dim
  | .affine i val r c dim => cAffine p i val r c dim
  | .cost i val r c => cCost p i val r c

/-- A sequence of calls. -/
def runAll [DecidableEq R] : List (Any R) → List (Call R) → Outcome (List (Any R))
  | p, [] => .ok p
  | p, c :: l => do
    let q ← c.run p
    runAll q.2 l

/-- A second-order cone as made by its order and by updates. -/
def SocOk (o : Soc.Con R) : Prop :=
  o.order = some o.n ∧ (o.m = 0 ∨ o.rowsA = o.n + 1) ∧ (o.rowsC = 0 ∨ o.rowsC = o.n + 1)

/-- The indices name a coefficient of the operator, and the value is possible there: the diagonal of a
Hermitian matrix is real. -/
def Inside (a : Any R) (val : R) (var r c dim : Int) : Prop :=
  match a with
  | .hermitian d n _ => 0 ≤ var ∧ (0 ≤ r ∧ r < n) ∧ (0 ≤ c ∧ c < n) ∧ (0 ≤ dim ∧ dim < d) ∧
      (r = c → dim ≠ 0 → val = 0)
  | .linear o => (0 ≤ var ∧ var < o.m) ∧ (0 ≤ r ∧ r < o.n) ∧ c = 0 ∧ dim = 0
  | .soc o => 0 ≤ var ∧ (0 ≤ r ∧ r ≤ o.n) ∧ c = 0 ∧ dim = 0
  | .cost _ _ => False
  | .other => False

/-- The indices name a coefficient of the affine term. -/
def InsideAffine (a : Any R) (val : R) (r c dim : Int) : Prop :=
  match a with
  | .hermitian d n _ => (0 ≤ r ∧ r < n) ∧ (0 ≤ c ∧ c < n) ∧ (0 ≤ dim ∧ dim < d) ∧
      (r = c → dim ≠ 0 → val = 0)
  | .linear o => (0 ≤ r ∧ r < o.n) ∧ c = 0 ∧ dim = 0
  | .soc o => (0 ≤ r ∧ r ≤ o.n) ∧ c = 0 ∧ dim = 0
  | .cost n _ => (0 ≤ r ∧ r < n) ∧ (0 ≤ c ∧ c < n) ∧ dim = 0
  | .other => False

/-- No linear inequality has too few columns for the variable, and second-order cones are made from
their orders. -/
def Addressable (p : List (Any R)) (var : Int) : Prop :=
  (∀ o, Any.linear o ∈ p → var < o.m) ∧ ∀ o, Any.soc o ∈ p → SocOk o

end Verif.Updates.Spec
