import Verif.Model.MatlabLinear
import Verif.Lemmas.CApi

/-! # Lemmas about linear inequalities through the MATLAB class -/

namespace Verif.MatlabLinear

open CApi SolveLoop Buffer

variable {R : Type}

/-- The state of an object with `N` variables after the inequalities `cs`. -/
structure Inv (h : Handle R) (N : Nat) (cs : List (Nat × Nat × Nat)) : Prop where
  vars : h.prog.mgr.maxVars = N
  cost : h.prog.linearCost.length = N
  eqs : h.prog.mgr.eqs.map Prod.fst = cs.map fun c => Con.linear c.1 c.2.1
  ids : h.ids = (List.range cs.length).map Int.ofNat

theorem Inv.step {h : Handle R} {N : Nat} {cs : List (Nat × Nat × Nat)} (hi : Inv h N cs) (c : Nat × Nat × Nat)
    (hc : c.1 ≤ c.2.2) :
    ∃ h', addLinearInequality h c.1 c.2.1 c.2.2 = .ok h' ∧ Inv h' N (cs ++ [c]) := by
  obtain ⟨p', h1, h2, -, h3, -, -, -, h4⟩ := add_ok h.prog (.linear c.1 c.2.1)
  have hn : h.prog.count = cs.length := by
    have := congrArg List.length hi.eqs
    simpa [Program.count] using this
  refine ⟨⟨p', h.ids ++ [(h.prog.count : Int)]⟩, ?_, ?_, ?_, ?_, ?_⟩
  · unfold addLinearInequality
    rw [if_neg (by omega)]
    simp [addDenseLinear, h1]
  · exact h3.trans hi.vars
  · exact (congrArg List.length h4).trans hi.cost
  · simp [h2.1, hi.eqs]
  · simp [hi.ids, hn, List.range_succ]

theorem Inv.all {N : Nat} : ∀ (l : List (Nat × Nat × Nat)) {h : Handle R} {cs : List (Nat × Nat × Nat)},
    Inv h N cs → (∀ c ∈ l, c.1 ≤ c.2.2) → ∃ h', addAll l h = .ok h' ∧ Inv h' N (cs ++ l)
  | [], h, cs, hi, _ => ⟨h, rfl, by simpa using hi⟩
  | c :: l, h, cs, hi, hl => by
    obtain ⟨h1, e1, i1⟩ := hi.step c (hl c List.mem_cons_self)
    obtain ⟨h2, e2, i2⟩ := Inv.all l i1 fun d hd => hl d (List.mem_cons_of_mem _ hd)
    exact ⟨h2, by simp [addAll, e1, e2], by simpa using i2⟩

end Verif.MatlabLinear
