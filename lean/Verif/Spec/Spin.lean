import Verif.Model.Soc
import Verif.Spec.Solve

/-!
# The Jordan algebra of a quadratic cone

For a symmetric positive semidefinite bilinear form `B` on the tails, the elements `(x₀, x₁)` form a
Jordan algebra with unit `(1, 0)`.  Everything is defined from its product.
-/

namespace Verif.Spin.Spec

open Soc

variable {R : Type} [Field R] [LinearOrder R]

/-- A symmetric, positive semidefinite bilinear form. -/
structure IsForm (B : (Nat → R) → (Nat → R) → R) : Prop where
  symm : ∀ x y, B x y = B y x
  add : ∀ x y z, B (fun i => x i + y i) z = B x z + B y z
  smul : ∀ a x z, B (fun i => a * x i) z = a * B x z
  nonneg : ∀ x, 0 ≤ B x x

variable (B : (Nat → R) → (Nat → R) → R)

/-- The Jordan product. -/
def mul (x y : El R) : El R := ⟨x.h * y.h + B x.t y.t, fun i => x.h * y.t i + y.h * x.t i⟩

/-- The unit. -/
def one : El R := ⟨1, fun _ => 0⟩

/-- Sum. -/
def add (x y : El R) : El R := ⟨x.h + y.h, fun i => x.t i + y.t i⟩

/-- Multiple. -/
def smul (a : R) (x : El R) : El R := ⟨a * x.h, fun i => a * x.t i⟩

/-- The quadratic representation `Q(x) y = 2 x ∘ (x ∘ y) - (x ∘ x) ∘ y`. -/
def quad (x y : El R) : El R :=
  add (smul 2 (mul B x (mul B x y))) (smul (-1) (mul B (mul B x x) y))

/-- The trace inner product: twice the unit component of the product. -/
def tr (x y : El R) : R := 2 * (mul B x y).h

/-- Equality of elements: tails that the form cannot tell apart are equal.  For the standard form
this is equality of all entries. -/
def Same (x y : El R) : Prop := x.h = y.h ∧ ∀ z, B x.t z = B y.t z

/-- The cone. -/
def Cone (x : El R) : Prop := 0 ≤ x.h ∧ B x.t x.t ≤ x.h ^ 2

/-- Its interior. -/
def Interior (x : El R) : Prop := 0 < x.h ∧ B x.t x.t < x.h ^ 2

/-- `a` and `b` are the eigenvalues of `x`: the roots of its characteristic polynomial. -/
def Eig (x : El R) (a b : R) : Prop := a + b = 2 * x.h ∧ a * b = x.h ^ 2 - B x.t x.t

/-- `y` is `f x`: there are complementary idempotents `c`, `d` with `x = a c + b d` and
`y = f(a) c + f(b) d`. -/
def IsFun (f : R → R) (x y : El R) : Prop :=
  ∃ c d a b, Same B (mul B c c) c ∧ Same B (mul B d d) d ∧ Same B (mul B c d) ⟨0, fun _ => 0⟩ ∧
    Same B (add c d) one ∧ Same B x (add (smul a c) (smul b d)) ∧
    Same B y (add (smul (f a) c) (smul (f b) d))

end Verif.Spin.Spec
