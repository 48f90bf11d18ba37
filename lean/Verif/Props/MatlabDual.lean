import Verif.Lemmas.MatlabDual
import Verif.Props.MatlabLinear
import Verif.Props.ReadDual

/-!
# C111: dual variables through the MATLAB class
-/

namespace Verif.MatlabLinear

open SolveLoop

variable {R : Type} [Field R] [LinearOrder R]

/-- **C111 (partial).** For the two kinds of constraints that the class can add, linear and matrix inequalities,
numbered in order (C109), and a solve that found the program infeasible or recorded an iteration: `Maximize` returns
one cell for each constraint, with one entry for each row of a linear inequality, and with the entries of the matrix
by columns for a matrix inequality.  The entries are those of the scaling point if the program was found infeasible,
and otherwise those of the scaling point divided by the last `inv_sqrt_mu` and the scaling of the cost.  Missing: a
solve that recorded no iteration, see `C111_factor_violated`. -/
theorem C111_duals_partial (es : List (Dual.Entry R)) (prog : Prog R)
    (hkind : ∀ e ∈ es, (∃ vars o w, e = ⟨vars, .linear o w⟩) ∨ ∃ vars n o w, e = ⟨vars, .lmi n o w⟩)
    (s : Stats R) (k : Nat) (d b : R)
    (hst : prog.status.primalInf = true ∨ prog.stats = some s ∧ s.numIter = some (k + 1) ∧
      s.sqrtInvMu.lookup k = some d ∧ s.bScale = some b) :
    ∃ xs, duals es prog ((List.range es.length).map Int.ofNat) = .ok xs ∧ xs.length = es.length ∧
      (∀ (i : Nat) vars o w, es[i]? = some ⟨vars, .linear o w⟩ →
        ∃ l, xs[i]? = some l ∧ l.length = o.n ∧ ∀ r < o.n,
          l[r]? = some (some (if prog.status.primalInf = true then w.W r else w.W r / (d * b)))) ∧
      ∀ (i : Nat) vars n o (w : Lmi.Ws n R), es[i]? = some ⟨vars, .lmi n o w⟩ →
        ∃ l, xs[i]? = some l ∧ l.length = n * n ∧ ∀ r c : Fin n,
          l[(c : Nat) * n + r]? =
            some (some (if prog.status.primalInf = true then w.W r c else w.W r c / (d * b))) := by
  have scale : ∀ (i : Nat) (e : Dual.Entry R), es[i]? = some e → ∀ xr xc : Int,
      Whole.readDual es prog i xr xc =
        Dual.getDual es prog.status.primalInf (d * b) i xr xc ∨
      prog.status.primalInf = true ∧ Whole.readDual es prog i xr xc = Dual.getDual es true 1 i xr xc := by
    intro i e h xr xc
    by_cases hp : prog.status.primalInf = true
    · right
      refine ⟨hp, ?_⟩
      unfold Whole.readDual
      rw [if_pos (Or.inl hp)]
    · left
      obtain ⟨h1, h2, h3, h4⟩ := hst.resolve_left hp
      unfold Whole.readDual
      rw [if_neg (by simp [hp, Dual.find_some h])]
      simp only [Bool.not_eq_true] at hp
      simp only [Whole.dualScale, SolveLoop.readVar, h1, h2, h3, h4, Outcome.bind_ok, Nat.add_sub_cancel, hp]
  have keyL : ∀ (i : Nat) vars o w, es[i]? = some ⟨vars, .linear o w⟩ →
      ∃ l, getDualVariable es prog i = .ok l ∧ l.length = o.n ∧ ∀ r < o.n,
        l[r]? = some (some (if prog.status.primalInf = true then w.W r else w.W r / (d * b))) := by
    intro i vars o w h
    rcases scale i _ h o.n 1 with e | ⟨hp, e⟩
    · obtain ⟨hs, l, e', hl, hr⟩ := Dual.C38_linear es i vars o w h prog.status.primalInf (d * b) o.n 1 (by simp)
      refine ⟨l, ?_, hl, hr⟩
      unfold getDualVariable
      rw [hs]
      dsimp only
      rw [e, e']
      rfl
    · obtain ⟨hs, l, e', hl, hr⟩ := Dual.C38_linear es i vars o w h true 1 o.n 1 (by simp)
      refine ⟨l, ?_, hl, fun r h => by simpa [hp] using hr r h⟩
      unfold getDualVariable
      rw [hs]
      dsimp only
      rw [e, e']
      rfl
  have keyM : ∀ (i : Nat) vars n o (w : Lmi.Ws n R), es[i]? = some ⟨vars, .lmi n o w⟩ →
      ∃ l, getDualVariable es prog i = .ok l ∧ l.length = n * n ∧ ∀ r c : Fin n,
        l[(c : Nat) * n + r]? =
          some (some (if prog.status.primalInf = true then w.W r c else w.W r c / (d * b))) := by
    intro i vars n o w h
    rcases scale i _ h ((n * n : Nat) : Int) 1 with e | ⟨hp, e⟩
    · obtain ⟨hs, l, e', hl, hr⟩ := Dual.C38_lmi es i vars n o w h prog.status.primalInf (d * b)
        ((n * n : Nat) : Int) 1 (by push_cast; ring)
      refine ⟨l, ?_, hl, hr⟩
      unfold getDualVariable
      rw [hs]
      dsimp only
      rw [e, e']
      rfl
    · obtain ⟨hs, l, e', hl, hr⟩ := Dual.C38_lmi es i vars n o w h true 1
        ((n * n : Nat) : Int) 1 (by push_cast; ring)
      refine ⟨l, ?_, hl, fun r c => by simpa [hp] using hr r c⟩
      unfold getDualVariable
      rw [hs]
      dsimp only
      rw [e, e']
      rfl
  have cell : ∀ (i : Nat) l, i < es.length → getDualVariable es prog i = .ok l →
      (((List.range es.length).map Int.ofNat).map
        fun i => ((getDualVariable es prog i).toOption).getD [])[i]? = some l := by
    intro i l hi e
    rw [List.getElem?_map, List.getElem?_map, List.getElem?_range hi]
    simp only [Option.map_some, Int.ofNat_eq_natCast]
    rw [e]
    rfl
  refine ⟨_, duals_ok es prog (fun i => ((getDualVariable es prog i).toOption).getD []) _ ?_, by simp, ?_, ?_⟩
  · intro i hi
    obtain ⟨j, hj, rfl⟩ := List.mem_map.1 hi
    have hj' := List.mem_range.1 hj
    have : ∃ l, getDualVariable es prog j = .ok l := by
      rcases hkind _ (List.getElem_mem hj') with ⟨vars, o, w, e⟩ | ⟨vars, n, o, w, e⟩
      · obtain ⟨l, e', -⟩ := keyL j vars o w (by rw [List.getElem?_eq_getElem hj', e])
        exact ⟨l, e'⟩
      · obtain ⟨l, e', -⟩ := keyM j vars n o w (by rw [List.getElem?_eq_getElem hj', e])
        exact ⟨l, e'⟩
    obtain ⟨l, e'⟩ := this
    simp only [Int.ofNat_eq_natCast]
    rw [e']
    rfl
  · intro i vars o w h
    obtain ⟨l, e', hl⟩ := keyL i vars o w h
    exact ⟨l, cell i l (List.getElem?_eq_some_iff.1 h).1 e', hl⟩
  · intro i vars n o w h
    obtain ⟨l, e', hl⟩ := keyM i vars n o w h
    exact ⟨l, cell i l (List.getElem?_eq_some_iff.1 h).1 e', hl⟩

/-- One linear inequality with two rows in one variable, with scaling point `(1, 2)`. -/
def exEntries : List (Dual.Entry ℚ) :=
  [⟨[0], .linear ⟨2, 1, fun _ _ => 1, fun _ => 1⟩ ⟨fun r => (r : ℚ) + 1, fun _ => 0, fun _ => 0⟩⟩]

/-- A solve as in the hypotheses: `Maximize` succeeds and returns the scaling point divided by `40 * 1/4`. -/
example : (∀ e ∈ exEntries, (∃ vars o w, e = ⟨vars, .linear o w⟩) ∨ ∃ vars n o w, e = ⟨vars, .lmi n o w⟩) ∧
    (do
      let h ← (new 1 : Outcome (Handle ℚ))
      let h ← addLinearInequality h 2 1 2
      maximizeAll exSqrt h [1] none ⟨false, none, false, false⟩ exCfg exOracle fun _ => exEntries) =
      .ok (true, [[some (1 / 10), some (1 / 5)]]) := by
  refine ⟨?_, by decide +kernel⟩
  intro e he
  simp only [exEntries, List.mem_singleton] at he
  exact .inl ⟨_, _, _, he⟩

/-- **C111 (violated, finding F101).** `Maximize` reads the dual variables whatever the status.  If the first
factorisation fails, for example as the inequalities do not bound all variables, the solve returns `false` without a
recorded iteration, and the class reads the statistics at an index that was never set. -/
theorem C111_factor_violated :
    (do
      let h ← (new 1 : Outcome (Handle ℚ))
      let h ← addLinearInequality h 2 1 2
      let r ← maximize exSqrt h [1] none ⟨false, none, false, false⟩ exCfg
        { exOracle with factorOk := fun _ => false }
      .ok (r.1.ret, r.1.prog.status.primalInf, r.1.prog.stats.map Stats.numIter)) =
      .ok (false, false, some none) ∧
    (do
      let h ← (new 1 : Outcome (Handle ℚ))
      let h ← addLinearInequality h 2 1 2
      maximizeAll exSqrt h [1] none ⟨false, none, false, false⟩ exCfg
        { exOracle with factorOk := fun _ => false } fun _ => exEntries) = .ub := by
  constructor <;> decide +kernel

end Verif.MatlabLinear
