import Verif.Model.WholeDual
import Verif.Spec.WholeSolve

/-!
# Specification for the dual variables of linear programs (C86)
-/

namespace Verif.Whole.Spec

open Dual Finset

/-- The data of a linear inequality; nothing else counts. -/
def con : Item ℝ → Linear.Con ℝ
  | .linear o _ => o
  | _ => ⟨0, 0, fun _ _ => 0, fun _ => 0⟩

/-- All constraints are linear inequalities. -/
def LinearProgram (P : Program ℝ) : Prop := ∀ e ∈ P.es, ∃ o w, e.item = .linear o w

/-- Constraint `i`. -/
def nth (es : List (Entry ℝ)) (i : Nat) : Entry ℝ := es.getD i ⟨[], .cost 0 fun _ _ => 0⟩

/-- The sum over all constraints of `A' x`, at variable `u`; `x i r` belongs to row `r` of constraint `i`. -/
noncomputable def balance (es : List (Entry ℝ)) (x : Nat → Nat → ℝ) (u : Nat) : ℝ :=
  ∑ i ∈ range es.length, Sup.Spec.ventry (nth es i).vars
    (fun j => ∑ r ∈ range (con (nth es i).item).n, (con (nth es i).item).A r j * x i r) u

/-- `x` satisfies the equations of the dual program: `A' x` is minus the cost. -/
def DualEquations (P : Program ℝ) (x : Nat → Nat → ℝ) : Prop := ∀ u < P.m, balance P.es x u = -P.cost u

/-- `x` is nonnegative. -/
def Nonnegative (P : Program ℝ) (x : Nat → Nat → ℝ) : Prop :=
  ∀ i < P.es.length, ∀ r < (con (nth P.es i).item).n, 0 ≤ x i r

/-- The value of the dual program: `c' x`. -/
noncomputable def dualValue (P : Program ℝ) (x : Nat → Nat → ℝ) : ℝ :=
  ∑ i ∈ range P.es.length, ∑ r ∈ range (con (nth P.es i).item).n, (con (nth P.es i).item).c r * x i r

/-- The dual variables of all constraints can be read, and are `x`. -/
def Reads (P : Program ℝ) (es : List (Entry ℝ)) (prog : SolveLoop.Prog ℝ) (x : Nat → Nat → ℝ) : Prop :=
  ∀ i < P.es.length, readDual es prog i (con (nth P.es i).item).n 1 =
    .ok (some ((List.range (con (nth P.es i).item).n).map fun r => some (x i r)))

end Verif.Whole.Spec
