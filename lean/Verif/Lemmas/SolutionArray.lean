import Verif.Model.SolutionArray
import Verif.Lemmas.PythonWrapper

/-!
# Lemmas on the array for the solution
-/

namespace Verif.Buffer

open CApi SolveLoop

variable {R : Type}

theorem mem_cells {m i : Nat} {out : Output R} : i ∈ cells m out ↔ out ≠ .untouched ∧ i < m := by
  cases out <;> simp [cells]

theorem cells_all {m yr : Nat} {out : Output R} (h : m ≤ yr) :
    (cells m out).all (· < yr) = true := by
  rw [List.all_eq_true]
  intro i hi
  have := (mem_cells.1 hi).2
  simp only [decide_eq_true_eq]
  omega

theorem cells_not_all {m yr : Nat} {out : Output R} (h : yr < m) (ho : out ≠ .untouched) :
    ¬ (cells m out).all (· < yr) = true := by
  rw [List.all_eq_true]
  intro hall
  have := hall yr (mem_cells.2 ⟨ho, h⟩)
  simp at this

variable [Field R] [LinearOrder R]

theorem conexSolve_fits {sqrt : R → R} {p : Program R} {stats : Option (Stats R)} {status : Status}
    {cfg : Config R} {o : Oracle R} {yr : Nat} (h : p.linearCost.length ≤ yr) :
    conexSolve sqrt p stats status cfg o yr =
      (solve sqrt (toProg p stats status) cfg o >>= fun r =>
        .ok (r, cells p.linearCost.length r.out)) := by
  unfold conexSolve
  cases solve sqrt (toProg p stats status) cfg o with
  | ok r => simp only [Outcome.bind_ok]; rw [if_pos (cells_all h)]
  | throws => rfl
  | ub => rfl
  | diverges => rfl

theorem length_maximize (p : Program R) (b : List R) :
    ((p.clearLinearCosts).addLinearCost (b.map fun x => -x)).2.linearCost.length ≤
      p.linearCost.length := by
  unfold Program.addLinearCost Program.clearLinearCosts
  split_ifs <;> simp

end Verif.Buffer
