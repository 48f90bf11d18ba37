import Mathlib.Algebra.BigOperators.Ring.Finset
import Mathlib.Algebra.Module.BigOperators
import Mathlib.Data.Fintype.BigOperators
import Verif.Spec.Hyper

/-!
# Structure constants of the hypercomplex algebras
-/

namespace Verif.Hyper

open Matrix Finset Spec

/-- The structure constants: `e_i e_j = ∑ c, γ i j c e_c`. -/
def gam (i j c : Nat) : Int := if index i j = c then (if 1 ≤ sign i j then 1 else -1) else 0

/-- The sign of conjugation. -/
def kap (i : Nat) : Int := if i = 0 then 1 else -1

theorem assoc_table {d : Nat} (hd : d = 1 ∨ d = 2 ∨ d = 4) : ∀ a b j c : Fin d,
    ∑ i : Fin d, gam a b i * gam i j c = ∑ i : Fin d, gam b j i * gam a i c := by
  rcases hd with rfl | rfl | rfl <;> decide +kernel

theorem alt_table : ∀ a b j c : Fin 8,
    ∑ i : Fin 8, gam a b i * gam i j c + ∑ i : Fin 8, gam b a i * gam i j c =
      ∑ i : Fin 8, gam b j i * gam a i c + ∑ i : Fin 8, gam a j i * gam b i c := by
  decide +kernel

theorem alt_table_right : ∀ a b j c : Fin 8,
    ∑ i : Fin 8, gam a b i * gam i j c + ∑ i : Fin 8, gam a j i * gam i b c =
      ∑ i : Fin 8, gam b j i * gam a i c + ∑ i : Fin 8, gam j b i * gam a i c := by
  decide +kernel

theorem unit_left_table {d : Nat} (hd : Dim d) : ∀ i j c : Fin d, i.1 = 0 →
    gam i j c = if j = c then 1 else 0 := by
  rcases hd with rfl | rfl | rfl | rfl <;> decide +kernel

theorem unit_right_table {d : Nat} (hd : Dim d) : ∀ i j c : Fin d, j.1 = 0 →
    gam i j c = if i = c then 1 else 0 := by
  rcases hd with rfl | rfl | rfl | rfl <;> decide +kernel

theorem conj_table {d : Nat} (hd : Dim d) : ∀ i j c : Fin d,
    kap c * gam i j c = kap i * kap j * gam j i c := by
  rcases hd with rfl | rfl | rfl | rfl <;> decide +kernel

/-- The real part of a product. -/
theorem real_table {d : Nat} (hd : Dim d) : ∀ i j c : Fin d, c.1 = 0 →
    gam i j c = if i = j then kap i else 0 := by
  rcases hd with rfl | rfl | rfl | rfl <;> decide +kernel

/-- The real part of a triple product does not depend on the brackets. -/
theorem real_assoc_table {d : Nat} (hd : Dim d) : ∀ a b j c : Fin d, c.1 = 0 →
    ∑ i : Fin d, gam a b i * gam i j c = ∑ i : Fin d, gam b j i * gam a i c := by
  rcases hd with rfl | rfl | rfl | rfl <;> decide +kernel

theorem norm_table {d : Nat} (hd : Dim d) : ∀ i j k m : Fin d,
    ∑ c : Fin d, gam i j c * gam k m c + ∑ c : Fin d, gam k j c * gam i m c =
      if i = k ∧ j = m then 2 else 0 := by
  rcases hd with rfl | rfl | rfl | rfl <;> decide +kernel

end Verif.Hyper
