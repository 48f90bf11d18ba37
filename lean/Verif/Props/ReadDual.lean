import Verif.Model.WholeDual
import Verif.Props.DualVariables

/-!
# C38 on the program that a solve leaves behind

`C38_linear` takes the scale as a number. Here it is read from the statistics of the program, as
`Program::GetDualVariable` (`/repo/conex/cone_program.h` 118-134) does.
-/

namespace Verif.Whole

open Dual

variable {R : Type} [Field R] [LinearOrder R]

/-- C38, an index without a constraint: the program is not consulted, so the call is defined even before
the first solve. -/
theorem C38_program_invalid (es : List (Entry R)) (prog : SolveLoop.Prog R) (i : Int)
    (h : i < 0 ∨ (es.length : Int) ≤ i) (xr xc : Int) :
    readDual es prog i xr xc = if xr * xc = 1 then .ok none else .ub := by
  have hf : find i 0 es = none := by
    rcases h with h | h
    · exact find_lt es i 0 h
    · have := find_eq es i.toNat 0
      rw [zero_add, Int.toNat_of_nonneg (by omega)] at this
      rw [this, List.getElem?_eq_none (by omega)]
      rfl
  unfold readDual
  rw [if_pos (Or.inr (by rw [hf]; rfl))]
  exact (C38_invalid es i h true 1 xr xc).2

example : readDual ([] : List (Entry ℚ)) ⟨false, 0, false, none, ⟨false, none, false, false⟩⟩ 3 1 1 =
    .ok none := by
  rw [C38_program_invalid _ _ _ (Or.inr (by decide))]
  rfl

/-- C38, a linear inequality: for a program found infeasible the scaling point itself, whatever the
statistics; otherwise the scaling point divided by the last `inv_sqrt_mu` and the scaling of the cost; and
undefined before the first solve. -/
theorem C38_program_linear (es : List (Entry R)) (prog : SolveLoop.Prog R) (i : Nat) (vars : List Nat)
    (o : Linear.Con R) (w : Linear.Ws R) (h : es[i]? = some ⟨vars, .linear o w⟩) (xr xc : Int)
    (hx : xr * xc = o.n) :
    (prog.status.primalInf = true → ∃ l, readDual es prog i xr xc = .ok (some l) ∧ l.length = o.n ∧
      ∀ r < o.n, l[r]? = some (some (w.W r))) ∧
    (prog.status.primalInf = false → ∀ s k d b, prog.stats = some s → s.numIter = some (k + 1) →
      s.sqrtInvMu.lookup k = some d → s.bScale = some b →
      ∃ l, readDual es prog i xr xc = .ok (some l) ∧ l.length = o.n ∧
        ∀ r < o.n, l[r]? = some (some (w.W r / (d * b)))) ∧
    (prog.status.primalInf = false → prog.stats = none → readDual es prog i xr xc = .ub) := by
  have hf := find_some h
  refine ⟨fun hp => ?_, fun hp s k d b h1 h2 h3 h4 => ?_, fun hp hs => ?_⟩
  · unfold readDual
    rw [if_pos (Or.inl hp)]
    simpa using (C38_linear es i vars o w h true 1 xr xc hx).2
  · unfold readDual
    rw [if_neg (by simp [hp, hf])]
    simp only [dualScale, SolveLoop.readVar, h1, h2, h3, h4, Outcome.bind_ok, Nat.add_sub_cancel]
    simpa using (C38_linear es i vars o w h false (d * b) xr xc hx).2
  · unfold readDual
    rw [if_neg (by simp [hp, hf])]
    simp [dualScale, SolveLoop.readVar, hs]

example : ([⟨[0], .linear ⟨2, 1, fun _ _ => 1, fun _ => 1⟩ ⟨fun r => (r : ℚ) + 1, fun _ => 0, fun _ => 0⟩⟩] :
      List (Entry ℚ))[0]? = some ⟨[0], .linear ⟨2, 1, fun _ _ => 1, fun _ => 1⟩
        ⟨fun r => (r : ℚ) + 1, fun _ => 0, fun _ => 0⟩⟩ ∧ (1 : Int) * 2 = (2 : Nat) ∧
    [((0 : Nat), (3 : ℚ)), (1, 5)].lookup 1 = some 5 := ⟨rfl, rfl, rfl⟩

end Verif.Whole
