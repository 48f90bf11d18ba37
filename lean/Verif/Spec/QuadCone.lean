import Verif.Model.QuadCone
import Verif.Spec.Spin
import Verif.Spec.Divergence

/-!
# What the operations of second-order and quadratic cones should compute
-/

namespace Verif.Soc.Spec

open Finset Spin.Spec SolveLoop.Spec

variable {R : Type} [Field R] [LinearOrder R]

/-- The data of the constraint are complete, for `m` variables. -/
def Complete (o : Con R) : Prop := o.rowsA = o.n + 1 ∧ o.rowsC = o.n + 1

/-- Slack `k c - A y`. -/
def slack (o : Con R) (k : R) (y : Nat → R) : El R :=
  ⟨k * o.c 0 - ∑ j ∈ range o.m, o.A 0 j * y j,
    fun i => k * o.c (i + 1) - ∑ j ∈ range o.m, o.A (i + 1) j * y j⟩

/-- A sequence of steps, each with its weight of `c`, point and step size. -/
def run (sqrt exp : R → R) (o : Con R) : List (R × (Nat → R) × R) → Ws R → Outcome (Ws R)
  | [], w => .ok w
  | (k, y, size) :: l, w => do
    let r ← prepareStep sqrt o k o.m y w
    let w ← takeStep sqrt exp o size r.1
    run sqrt exp o l w

/-- What preparing a step should leave: `z` with `z ∘ z = w`, the direction
`d = e - Q(z)(k c - A y)`, the largest absolute value `a` and the sum of squares `b` of its
eigenvalues. -/
def Prepared (B : (Nat → R) → (Nat → R) → R) (w s z d : El R) (a b : R) : Prop :=
  Same B (mul B z z) w ∧ Interior B z ∧ Same B d (add one (smul (-1) (quad B z s))) ∧
    ∃ l₁ l₂, Eig B d l₁ l₂ ∧ a = max |l₁| |l₂| ∧ b = l₁ ^ 2 + l₂ ^ 2

/-- What taking a step should leave: `w' = Q(z) exp(size d)`. -/
def Taken (B : (Nat → R) → (Nat → R) → R) (exp : R → R) (z d : El R) (size : R) (w' : El R) : Prop :=
  ∃ E, IsFun B exp (smul size d) E ∧ Same B w' (quad B z E)

/-- The system contributed by data `A`, `c` at the scaling point `w`. -/
structure Contributes (B : (Nat → R) → (Nat → R) → R) (m : Nat) (A : Nat → El R) (c w : El R)
    (G : Nat → Nat → R) (AW AQc : Nat → R) (wc cQc : R) : Prop where
  G : ∀ i < m, ∀ j < m, G i j = tr B (A i) (quad B w (A j))
  AW : ∀ i < m, AW i = tr B (A i) w
  AQc : ∀ i < m, AQc i = tr B (A i) (quad B w c)
  wc : wc = tr B w c
  cQc : cQc = tr B c (quad B w c)

end Verif.Soc.Spec

namespace Verif.QuadCone.Spec

open Finset Soc

variable {R : Type} [Field R] [LinearOrder R]

/-- `Q` is symmetric and positive semidefinite, of order `n`. -/
def Psd (n : Nat) (Q : Nat → Nat → R) : Prop :=
  (∀ i < n, ∀ j < n, Q i j = Q j i) ∧
    ∀ x : Nat → R, 0 ≤ ∑ i ∈ range n, x i * ∑ j ∈ range n, Q i j * x j

/-- Slack `k c - A y`. -/
def slack (o : Con R) (k : R) (y : Nat → R) : El R :=
  ⟨k * o.C.h - ∑ j ∈ range o.m, (o.A j).h * y j,
    fun i => k * o.C.t i - ∑ j ∈ range o.m, (o.A j).t i * y j⟩

/-- The Gram matrix and the operator `x ↦ A₁' Q x` of the constraint are right. -/
def Good (o : Con R) : Prop :=
  (∀ i < o.m, ∀ j < o.m, o.gram i j = inner o.n o.Q (o.A i).t (o.A j).t) ∧
    ∀ x, ∀ i < o.m, o.evalAtQX x i = inner o.n o.Q (o.A i).t x

/-- A sequence of steps, each with its weight of `c`, point and step size. -/
def run (sqrt exp : R → R) (o : Con R) : List (R × (Nat → R) × R) → Ws R → Outcome (Ws R)
  | [], w => .ok w
  | (k, y, size) :: l, w => do
    let r ← prepareStep sqrt o k o.m y w
    run sqrt exp o l (takeStep sqrt exp o size r.1)

end Verif.QuadCone.Spec
