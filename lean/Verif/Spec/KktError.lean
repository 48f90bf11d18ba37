import Verif.Spec.Gap

/-!
# Specification of objective values (C72)
-/

namespace Verif.KktError.Spec

open Finset Dual

/-- The constraint is not a quadratic cost, and has complete data of the right sizes. -/
def Regular (e : Entry ℝ) (N : Nat) : Prop :=
  match e.item with
  | .octonion _ o w => e.vars.Nodup ∧ (∀ v ∈ e.vars, v < N) ∧ o.mats.length = e.vars.length ∧
      HermLmi.Spec.HermitianData o ∧ Hyper.Spec.Hermitian w.W
  | .cost _ _ => False
  | _ => Gap.Spec.Good e N

/-- `s` are the contributions of the constraints to the linear system. -/
def Contributions (sqrt : ℝ → ℝ) (es : List (Entry ℝ)) (s : Nat → Schur.Sys ℝ) : Prop :=
  ∀ (i : Nat) (e : Entry ℝ), es[i]? = some e →
    ∃ s₀ : Schur.Sys ℝ, s₀.rows = e.vars.length ∧ e.item.schur sqrt s₀ = .ok (s i)

/-- `y` solves `G y = k (bs b + cs A Q c) - 2 A W`, with the contributions of all constraints added
up. -/
def Solves (N : Nat) (b : Nat → ℝ) (k bs cs : ℝ) (es : List (Entry ℝ)) (s : Nat → Schur.Sys ℝ)
    (y : Nat → ℝ) : Prop :=
  ∀ u < N, ∑ v ∈ range N, Sup.Spec.total (es.map Entry.vars) (fun i => (s i).G) u v * y v =
    k * (bs * b u + cs * ((List.range es.length).map fun i =>
      Sup.Spec.ventry ((es.map Entry.vars).getD i []) (s i).AQc u).sum) -
    2 * ((List.range es.length).map fun i =>
      Sup.Spec.ventry ((es.map Entry.vars).getD i []) (s i).AW u).sum

end Verif.KktError.Spec
