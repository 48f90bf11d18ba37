import Verif.Model.MatlabDual
import Verif.Lemmas.DualVariables

/-!
# Lemmas about dual variables through the MATLAB class
-/

namespace Verif.MatlabLinear

open SolveLoop

variable {R : Type} [Field R] [LinearOrder R]

omit [LinearOrder R] in
theorem duals_ok (es : List (Dual.Entry R)) (prog : Prog R) (f : Int → List (Option R)) (ids : List Int)
    (h : ∀ i ∈ ids, getDualVariable es prog i = .ok (f i)) : duals es prog ids = .ok (ids.map f) := by
  induction ids with
  | nil => rfl
  | cons i is ih =>
    unfold duals
    rw [h i (by simp), ih fun x hx => h x (List.mem_cons_of_mem _ hx)]
    rfl

end Verif.MatlabLinear
