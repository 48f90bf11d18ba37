import Mathlib.Algebra.BigOperators.Fin
import Mathlib.Order.Bounds.Defs
import Verif.Model.PythonErrors

/-!
# Specification of the error report (C77)

The constraints in mathematical notation: `c - A y ≥ 0` entry by entry, and `c - ∑ y_v A_v` positive semidefinite.
-/

namespace Verif.PyErr.Spec

variable {R : Type}

/-- A constraint on `m` unknowns. -/
inductive Con (R : Type) where
  /-- `r` linear inequalities `A y ≤ c`. -/
  | linear (r : Nat) (A : Nat → Nat → R) (c : Nat → R)
  /-- A matrix inequality of order `n`; entry `(p, q)` of the matrix of unknown `i` is `A p q i`. -/
  | dense (n : Nat) (A : Nat → Nat → Nat → R) (c : Nat → Nat → R)
  /-- The same where matrix number `i` belongs to the unknown `vars[i]`. -/
  | sparse (n : Nat) (vars : List Nat) (A : Nat → Nat → Nat → R) (c : Nat → Nat → R)

/-- Well-formed constraints: none is empty, the matrix of affine terms is symmetric of order at least two, the unknowns
of a sparse inequality are distinct and exist. -/
def Con.Ok (m : Nat) : Con R → Prop
  | .linear r _ _ => 0 < r
  | .dense n _ c => 2 ≤ n ∧ 0 < m ∧ ∀ p q, c p q = c q p
  | .sparse n vars _ c => 2 ≤ n ∧ vars ≠ [] ∧ vars.Nodup ∧ (∀ v ∈ vars, v < m) ∧ ∀ p q, c p q = c q p

/-- Is the constraint a vector inequality? -/
def Con.vector : Con R → Bool
  | .linear .. => true
  | _ => false

/-- The shape of slacks and multipliers. -/
def Con.rows : Con R → Nat
  | .linear r _ _ => r
  | .dense n _ _ => n
  | .sparse n _ _ _ => n

@[inherit_doc Con.rows]
def Con.cols : Con R → Nat
  | .linear _ _ _ => 1
  | .dense n _ _ => n
  | .sparse n _ _ _ => n

section
variable [CommRing R]

/-- Entry `(p, q)` of the slack `c - A y`. -/
def Con.slack (m : Nat) (y : Nat → R) : Con R → Nat → Nat → R
  | .linear _ A c, p, _ => c p - ∑ k ∈ Finset.range m, A p k * y k
  | .dense _ A c, p, q => c p q - ∑ k ∈ Finset.range m, A p q k * y k
  | .sparse _ vars A c, p, q => c p q - ∑ t : Fin vars.length, A p q t * y vars[t]

/-- The inner product of two slacks or multipliers: `∑ s_i x_i`, or the trace of `s x`. -/
def Con.inner (s x : Nat → Nat → R) : Con R → R
  | .linear r _ _ => ∑ i ∈ Finset.range r, s i 0 * x i 0
  | .dense n _ _ => ∑ p ∈ Finset.range n, ∑ q ∈ Finset.range n, s p q * x q p
  | .sparse n _ _ _ => ∑ p ∈ Finset.range n, ∑ q ∈ Finset.range n, s p q * x q p

/-- Entry `j` of `A' x`. -/
def Con.adjoint (x : Nat → Nat → R) (j : Nat) : Con R → R
  | .linear r A _ => ∑ i ∈ Finset.range r, A i j * x i 0
  | .dense n A _ => ∑ p ∈ Finset.range n, ∑ q ∈ Finset.range n, A p q j * x q p
  | .sparse n vars A _ => ∑ t : Fin vars.length,
      if vars[t] = j then ∑ p ∈ Finset.range n, ∑ q ∈ Finset.range n, A p q t * x q p else 0

end

/-- The smallest entry of a vector, the least eigenvalue of a matrix. -/
def Con.IsMin [LinearOrder R] (ext : Ext R) (f : Nat → Nat → R) (v : R) : Con R → Prop
  | .linear r _ _ => IsLeast {a | ∃ i < r, a = f i 0} v
  | .dense n _ _ => v = ext.minEig n f
  | .sparse n _ _ _ => v = ext.minEig n f

/-- The functions of SciPy look at the entries in range only. -/
structure Local (ext : Ext R) : Prop where
  minEig : ∀ n f g, (∀ p < n, ∀ q < n, f p q = g p q) → ext.minEig n f = ext.minEig n g
  norm : ∀ n f g, (∀ p < n, f p = g p) → ext.norm n f = ext.norm n g

/-- A matrix with the given shape and entries. -/
def IsMat (a : Mat R) (r c : Nat) (f : Nat → Nat → R) : Prop :=
  a.rows = r ∧ a.cols = c ∧ ∀ p < r, ∀ q < c, a.at' p q = f p q

/-- The call of the Python class that adds a constraint, with affine terms of vector inequalities given as arrays of one
dimension. -/
def addCon (m : Nat) (p : Conex R) : Con R → Outcome (Conex R)
  | .linear r A c => .ok (p.addLinearInequality ⟨r, m, A⟩ ⟨1, r, fun _ j => c j⟩)
  | .dense n A c => p.addDenseLmi n n m A ⟨n, n, c⟩
  | .sparse n vars A c => p.addSparseLmi n n vars.length A ⟨n, n, c⟩ (vars.map Int.ofNat)

/-- The calls that build a program with `m` unknowns. -/
def build (m : Nat) : List (Con R) → Conex R → Outcome (Conex R)
  | [], p => .ok p
  | c :: cs, p => do
    let p ← addCon m p c
    build m cs p

end Verif.PyErr.Spec
