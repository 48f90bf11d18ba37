import Verif.Model.NewtonStep
import Verif.Spec.HermitianLmi
import Verif.Spec.Lmi
import Verif.Spec.QuadCone
import Verif.Spec.Assembler
import Verif.Spec.Solve
import Mathlib.LinearAlgebra.Matrix.PosDef

/-!
# Specification of feasible and almost optimal points (C71)
-/

namespace Verif.Gap.Spec

open Finset Dual

/-- The constraint has complete data of the right sizes, symmetric matrices, and a scaling point in the
interior of its cone; a quadratic cost is convex. -/
def Good (e : Entry ℝ) (N : Nat) : Prop :=
  e.vars.Nodup ∧ (∀ v ∈ e.vars, v < N) ∧
  match e.item with
  | .linear o w => o.m = e.vars.length ∧ ∀ r < o.n, 0 < w.W r
  | .lmi _ o w => o.m = e.vars.length ∧ Lmi.Spec.Symmetric o ∧ w.W.PosDef
  | .hermitian d _ _ o w => o.mats.length = e.vars.length ∧ (d = 1 ∨ d = 2 ∨ d = 4) ∧
      HermLmi.Spec.HermitianData o ∧ HermLmi.Spec.PosDef w.W
  | .soc o w => o.m = e.vars.length ∧ Soc.Spec.Complete o ∧ Spin.Spec.Interior (Soc.dot o.n) w.W
  | .quad o w => o.m = e.vars.length ∧ QuadCone.Spec.Good o ∧
      Spin.Spec.IsForm (QuadCone.inner o.n o.Q) ∧
      Spin.Spec.Interior (QuadCone.inner o.n o.Q) w.W
  | .equality o => o.nb = o.p ∧ o.q + o.p = e.vars.length
  | .cost n Q => n = e.vars.length ∧ QuadCone.Spec.Psd n Q
  | _ => False

/-- The point `z` satisfies the constraint. -/
def Sat (z : Nat → ℝ) : Item ℝ → Prop
  | .linear o _ => ∀ r < o.n, ∑ j ∈ range o.m, o.A r j * z j ≤ o.c r
  | .lmi _ o _ => (o.C - ∑ j ∈ range o.m, z j • o.A j).PosSemidef
  | .soc o _ => Spin.Spec.Cone (Soc.dot o.n) (Soc.Spec.slack o 1 z)
  | .quad o _ => Spin.Spec.Cone (QuadCone.inner o.n o.Q) (QuadCone.Spec.slack o 1 z)
  | .equality o => ∀ r < o.p, ∑ j ∈ range o.q, o.A r j * z j = o.b r
  | .cost _ _ => True
  | .hermitian _ _ _ o _ => ∃ C, o.affine = some C ∧
      ∀ u, 0 ≤ HermLmi.Spec.form (HermLmi.Spec.slack o.mats C 1 z) u
  | .octonion _ _ _ => False

/-- All constraints are satisfied. -/
def Feasible (es : List (Entry ℝ)) (z : Nat → ℝ) : Prop :=
  ∀ e ∈ es, Sat (fun j => z (e.vars.getD j 0)) e.item

/-- The quadratic cost `z' Q z / 2`. -/
noncomputable def quadCost (z : Nat → ℝ) : Item ℝ → ℝ
  | .cost n Q => 1 / 2 * ∑ i ∈ range n, z i * ∑ j ∈ range n, Q i j * z j
  | _ => 0

/-- The function to be maximised: `b' z` minus `r` times the quadratic costs. -/
noncomputable def objective (N : Nat) (b : Nat → ℝ) (r : ℝ) (es : List (Entry ℝ)) (z : Nat → ℝ) : ℝ :=
  ∑ v ∈ range N, b v * z v - r * (es.map fun e => quadCost (fun j => z (e.vars.getD j 0)) e.item).sum

/-- Multipliers of an equation occur in no other constraint and not in the cost. -/
def Separate (es : List (Entry ℝ)) (b : Nat → ℝ) : Prop :=
  ∀ (i : Nat) (e : Entry ℝ) (o : Equality.Con ℝ), es[i]? = some e → e.item = .equality o → ∀ r < o.p,
    b (e.vars.getD (o.q + r) 0) = 0 ∧
    ∀ (j : Nat) (e' : Entry ℝ), es[j]? = some e' → j ≠ i → e.vars.getD (o.q + r) 0 ∉ e'.vars

/-- The norm of the direction of a matrix inequality is at most `a`. -/
def Bounded (k a : ℝ) (y : Nat → ℝ) : Item ℝ → Prop
  | .lmi _ o w => ∀ μ, MatrixExp.Spec.Eigenvalue (w.W * Lmi.Spec.slack o k y) μ → |1 - μ| ≤ a
  | .hermitian _ _ _ o w => ∀ C, o.affine = some C →
      ∀ μ, HermLmi.Spec.Eigenvalue (Hyper.multiply w.W (HermLmi.Spec.slack o.mats C k y)) μ → |1 - μ| ≤ a
  | _ => True

/-- `y` solves the linear system of the scaling points of `es`, for the barrier parameter `k` (as `1/√μ`)
and the scalings `bs` of the linear cost and `cs` of the affine terms:
`G y = k (bs b + cs A Q c) - 2 A W`, with the contributions of all constraints added up. -/
def System (sqrt : ℝ → ℝ) (N : Nat) (b : Nat → ℝ) (k bs cs : ℝ) (es : List (Entry ℝ)) (y : Nat → ℝ) :
    Prop :=
  ∃ s₀ s : Nat → Schur.Sys ℝ,
    (∀ (i : Nat) (e : Entry ℝ), es[i]? = some e → (s₀ i).rows = e.vars.length) ∧
    (∀ (i : Nat) (e : Entry ℝ), es[i]? = some e → e.item.schur sqrt (s₀ i) = .ok (s i)) ∧
    ∀ u < N, ∑ v ∈ range N, Sup.Spec.total (es.map Entry.vars) (fun i => (s i).G) u v * y v =
      k * (bs * b u + cs * ((List.range es.length).map fun i =>
        Sup.Spec.ventry ((es.map Entry.vars).getD i []) (s i).AQc u).sum) -
      2 * ((List.range es.length).map fun i =>
        Sup.Spec.ventry ((es.map Entry.vars).getD i []) (s i).AW u).sum

/-- The iterations `0, ..., j` of a solve: the directions `y i`, the norms `norm i` they are reported to
have, and the constraints `es i` before each iteration. -/
def Run (v : Env ℝ) (N : Nat) (b : Nat → ℝ) (bs cs : ℝ) (k norm : Nat → ℝ) (j : Nat)
    (es : Nat → List (Entry ℝ)) (y : Nat → Nat → ℝ) : Prop :=
  ∀ i ≤ j, System v.sqrt N b (k i) bs cs (es i) (y i) ∧
    ∃ es' B, Dual.prepareStep v (k i * cs) N (y i) (es i) = .ok (es', norm i, B) ∧
      (i < j → Dual.takeStep v (SolveLoop.stepSize (norm i)) es' = .ok (es (i + 1)))

end Verif.Gap.Spec
