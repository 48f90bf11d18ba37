import Verif.Spec.Centering
import Verif.Spec.Spin
import Verif.Model.QuadCone

/-!
# Specification of centering for second-order and quadratic cones (C92)

Every row of a linear inequality, every second-order cone and every quadratic cone is one *cell*.  Its points are
pairs of a head and a tail; those of a row have no tail.
-/

namespace Verif.ConeCentering.Spec

open Finset Verif.Dual Whole.Spec Soc

/-- Linear inequalities, second-order cones, quadratic cones and quadratic costs. -/
def VectorCones (es : List (Entry ℝ)) : Prop :=
  ∀ e ∈ es, (∃ o w, e.item = .linear o w) ∨ (∃ o w, e.item = .soc o w) ∨ (∃ o w, e.item = .quad o w) ∨
    ∃ n Q, e.item = .cost n Q

/-- The number of cells. -/
def cells : Item ℝ → Nat
  | .linear o _ => o.n
  | .soc _ _ => 1
  | .quad _ _ => 1
  | _ => 0

/-- The inner product of tails. -/
noncomputable def form : Item ℝ → (Nat → ℝ) → (Nat → ℝ) → ℝ
  | .soc o _ => dot o.n
  | .quad o _ => QuadCone.inner o.n o.Q
  | _ => fun _ _ => 0

/-- The inner product: the product of two numbers for a row, and `2 (x₀ y₀ + x₁' Q y₁)` for a cone. -/
noncomputable def pair : Item ℝ → El ℝ → El ℝ → ℝ
  | .linear _ _ => fun x y => x.h * y.h
  | i => fun x y => 2 * (x.h * y.h + form i x.t y.t)

/-- The rank of a cell. -/
def order : Item ℝ → ℝ
  | .linear _ _ => 1
  | _ => 2

/-- Column `j` of `A`, in cell `r`. -/
def column : Item ℝ → Nat → Nat → El ℝ
  | .linear o _ => fun r j => ⟨o.A r j, fun _ => 0⟩
  | .soc o _ => fun _ j => ⟨o.A 0 j, fun i => o.A (i + 1) j⟩
  | .quad o _ => fun _ j => o.A j
  | _ => fun _ _ => ⟨0, fun _ => 0⟩

/-- The affine term in cell `r`. -/
def affine : Item ℝ → Nat → El ℝ
  | .linear o _ => fun r => ⟨o.c r, fun _ => 0⟩
  | .soc o _ => fun _ => ⟨o.c 0, fun i => o.c (i + 1)⟩
  | .quad o _ => fun _ => o.C
  | _ => fun _ => ⟨0, fun _ => 0⟩

/-- The scaling point in cell `r`. -/
def point : Item ℝ → Nat → El ℝ
  | .linear _ w => fun r => ⟨w.W r, fun _ => 0⟩
  | .soc _ w => fun _ => w.W
  | .quad _ w => fun _ => w.W
  | _ => fun _ => ⟨0, fun _ => 0⟩

/-- The slack `c C - A y` in cell `r` of constraint `i`. -/
noncomputable def slack (es : List (Entry ℝ)) (c : ℝ) (y : Nat → ℝ) (i r : Nat) : El ℝ :=
  let e := nth es i
  ⟨c * (affine e.item r).h - ∑ j ∈ range e.vars.length, (column e.item r j).h * y (e.vars.getD j 0),
    fun l => c * (affine e.item r).t l - ∑ j ∈ range e.vars.length, (column e.item r j).t l * y (e.vars.getD j 0)⟩

/-- The determinant of a point: the square of its head minus that of its tail. -/
noncomputable def det (B : (Nat → ℝ) → (Nat → ℝ) → ℝ) (x : El ℝ) : ℝ := x.h ^ 2 - B x.t x.t

/-- The inverse `(x₀, -x₁) / det x`. -/
noncomputable def inverse (B : (Nat → ℝ) → (Nat → ℝ) → ℝ) (x : El ℝ) : El ℝ :=
  ⟨x.h / det B x, fun l => -x.t l / det B x⟩

/-- `A' x` at unknown `u`. -/
noncomputable def image (es : List (Entry ℝ)) (x : Nat → Nat → El ℝ) (u : Nat) : ℝ :=
  ∑ i ∈ range es.length, Sup.Spec.ventry (nth es i).vars
    (fun j => ∑ r ∈ range (cells (nth es i).item),
      pair (nth es i).item (column (nth es i).item r j) (x i r)) u

/-- `y` is the central point: its slacks are interior points `s`, and `A' s⁻¹ + Q y = g`. -/
structure Central (es : List (Entry ℝ)) (N : Nat) (g : Nat → ℝ) (c : ℝ) (y : Nat → ℝ) : Prop where
  interior : ∀ i < es.length, ∀ r < cells (nth es i).item,
    Spin.Spec.Interior (form (nth es i).item) (slack es c y i r)
  stationary : ∀ u < N, image es (fun i r => inverse (form (nth es i).item) (slack es c y i r)) u +
    Centering.Spec.gradients es y u = g u

/-- The distance of two interior points of a cell: `⟨w, s⟩ + ⟨w⁻¹, s⁻¹⟩` minus twice the rank.  It is nonnegative, and
zero only if the points are inverse to each other. -/
noncomputable def separation (o : Item ℝ) (w s : El ℝ) : ℝ :=
  pair o w s + pair o (inverse (form o) w) (inverse (form o) s) - 2 * order o

/-- The distance of the scaling points from those of the point `y`, which are the inverse slacks. -/
noncomputable def distance (es : List (Entry ℝ)) (c : ℝ) (y : Nat → ℝ) : ℝ :=
  ∑ i ∈ range es.length, ∑ r ∈ range (cells (nth es i).item),
    separation (nth es i).item (point (nth es i).item r) (slack es c y i r)

/-- The program and its dual have interior points: `c C - A y` is interior, and so is `x`, with `A' x + Q w = g`. -/
structure Strict (es : List (Entry ℝ)) (N : Nat) (g : Nat → ℝ) (c : ℝ) (y : Nat → ℝ) (x : Nat → Nat → El ℝ)
    (w : Nat → ℝ) : Prop where
  primal : ∀ i < es.length, ∀ r < cells (nth es i).item,
    Spin.Spec.Interior (form (nth es i).item) (slack es c y i r)
  dual : ∀ i < es.length, ∀ r < cells (nth es i).item, Spin.Spec.Interior (form (nth es i).item) (x i r)
  equations : ∀ u < N, image es x u + Centering.Spec.gradients es w u = g u

/-- The sum of the ranks of all cells. -/
noncomputable def orders (es : List (Entry ℝ)) : ℝ :=
  ∑ i ∈ range es.length, ∑ _r ∈ range (cells (nth es i).item), order (nth es i).item

/-- The inner product of dual points and slacks. -/
noncomputable def product (es : List (Entry ℝ)) (c : ℝ) (y : Nat → ℝ) (x : Nat → Nat → El ℝ) : ℝ :=
  ∑ i ∈ range es.length, ∑ r ∈ range (cells (nth es i).item), pair (nth es i).item (x i r) (slack es c y i r)

/-- `a x` is at most `y`, in the order of the cone. -/
def Below (B : (Nat → ℝ) → (Nat → ℝ) → ℝ) (a : ℝ) (x y : El ℝ) : Prop :=
  Spin.Spec.Cone B ⟨y.h - a * x.h, fun l => y.t l - a * x.t l⟩

end Verif.ConeCentering.Spec
