import Verif.Model.ConstraintManager

/-!
# Specification vocabulary for constraint bookkeeping (C01-C04)
-/

namespace Verif.CM.Spec

/-- What the user means by a valid list of variables. -/
def ValidVars (N : Nat) (vars : List Int) : Prop :=
  vars.Nodup ∧ ∀ x ∈ vars, 0 ≤ x ∧ x < N

/-- Number of unknowns: problem variables plus one multiplier for each equation row. -/
def numUnknowns {κ : Type} (s : Manager κ) : Nat := s.maxVars + (s.dualVars.map List.length).sum

/-- `s'` extends `s`: every constraint of `s` keeps its position, index set and multipliers. -/
def Extends {κ : Type} (s s' : Manager κ) : Prop :=
  s.eqs <+: s'.eqs ∧ s.cliques <+: s'.cliques ∧ s.dualVars <+: s'.dualVars ∧ s.maxVars = s'.maxVars

/-- The variable list a call refers to, for a program with `N` variables. -/
def callVars {κ : Type} (N : Nat) : Call κ → List Int
  | .add _ => (List.range N).map Int.ofNat
  | .addOn _ vars => vars
  | .addEq _ _ => (List.range N).map Int.ofNat
  | .addEqOn _ _ vars => vars

/-- Number of equation rows (hence multipliers) a call asks for. -/
def callRows {κ : Type} : Call κ → Nat
  | .add _ => 0
  | .addOn _ _ => 0
  | .addEq _ m => m
  | .addEqOn _ m _ => m

/-- The payload of a call. -/
def callPayload {κ : Type} : Call κ → κ
  | .add x => x
  | .addOn x _ => x
  | .addEq x _ => x
  | .addEqOn x _ _ => x

end Verif.CM.Spec
