import Verif.Lemmas.MatlabLinear
import Verif.Props.SolutionArray

/-!
# C109: linear inequalities through the MATLAB class
-/

namespace Verif.MatlabLinear

open CApi SolveLoop Buffer

variable {R : Type}

variable [Field R] [LinearOrder R]

/-- **C109 (partial).** For `N ≥ 1` variables, inequalities with `N` columns and at least as many affine terms as
rows, and a cost vector with `N` entries: all calls succeed, the numbers recorded are those of the constraints in
order, `Maximize` is undefined only if the solver itself is, and it writes to the array for `y` only.  Missing:
arrays of other sizes, which the class does not refuse, see the violations. -/
theorem C109_class_partial (N : Nat) (hN : 1 ≤ N) (l : List (Nat × Nat × Nat))
    (hl : ∀ c ∈ l, c.2.1 = N ∧ c.1 ≤ c.2.2) (b : List R) (hb : b.length = N) (sqrt : R → R) (cfg : Config R)
    (o : Oracle R) (stats : Option (Stats R)) (status : Status) :
    ∃ h h' : Handle R, new N = .ok h ∧ addAll l h = .ok h' ∧
      h'.prog.mgr.eqs.map Prod.fst = l.map (fun c => Con.linear c.1 N) ∧
      h'.ids = (List.range l.length).map Int.ofNat ∧
      (maximize sqrt h' b stats status cfg o = .ub → solve sqrt (toProg h'.prog stats status) cfg o = .ub) ∧
      ∀ r w, maximize sqrt h' b stats status cfg o = .ok (r, w) →
        solve sqrt (toProg h'.prog stats status) cfg o = .ok r ∧ ∀ i ∈ w, i < N := by
  have hnew : ∃ h : Handle R, new N = .ok h ∧ Inv h N [] := by
    refine ⟨⟨Program.setNumberOfVariables (Program.new 0) N, []⟩, ?_, rfl, ?_, rfl, rfl⟩
    · have h1 : ¬ ((N : Int) < 1) := by omega
      simp [new, setVariables, h1, saferCast, Program.new, Program.setNumberOfVariables,
        CM.Manager.setNumberOfVariables, CM.Manager.empty]
    · simp [Program.setNumberOfVariables]
  obtain ⟨h, e, i0⟩ := hnew
  obtain ⟨h', e', i1⟩ := i0.all l fun c hc => (hl c hc).2
  rw [List.nil_append] at i1
  have heq : h'.prog.mgr.eqs.map Prod.fst = l.map fun c => Con.linear c.1 N := by
    rw [i1.eqs]
    exact List.map_congr_left fun c hc => by rw [(hl c hc).1]
  have hfit : columnsFit h'.prog = true := by
    unfold columnsFit
    rw [List.all_eq_true]
    intro x hx
    have : x.1 ∈ h'.prog.mgr.eqs.map Prod.fst := List.mem_map_of_mem hx
    rw [heq] at this
    obtain ⟨c, -, hc⟩ := List.mem_map.1 this
    rw [← hc]
    simp [i1.vars]
  have hp : ∀ q : Program R, q = ((h'.prog.clearLinearCosts).addLinearCost (b.map fun x => -x)).2 →
      toProg q stats status = toProg h'.prog stats status := by
    rintro q rfl
    unfold Program.addLinearCost Program.clearLinearCosts
    split_ifs <;> rfl
  have f := C70_fits_partial sqrt ((h'.prog.clearLinearCosts).addLinearCost (b.map fun x => -x)).2 stats status cfg
    o b.length ((length_maximize h'.prog b).trans (by rw [i1.cost, hb]))
  rw [hp _ rfl] at f
  refine ⟨h, h', e, e', heq, i1.ids, ?_, ?_⟩
  · unfold maximize
    rw [if_pos hfit]
    exact f.1
  · intro r w hw
    unfold maximize at hw
    rw [if_pos hfit] at hw
    have := f.2 r w hw
    rwa [hb] at this

example : ∀ c ∈ [((4 : Nat), (2 : Nat), (4 : Nat)), (1, 2, 1)], c.2.1 = 2 ∧ c.1 ≤ c.2.2 := by decide

omit [Field R] [LinearOrder R] in
/-- **C109 (violated).** An affine term with fewer entries than `A` has rows is not refused: the library reads
outside of the array. -/
theorem C109_affine_violated (h : Handle R) (rows cols entries : Nat) (he : entries < rows) :
    addLinearInequality h rows cols entries = .ub := if_pos he

example : (1 : Nat) < 4 := by decide

/-- **C109 (violated).** A cost vector that is too short is not refused: `Maximize` allocates one entry for `y` and
the library writes three. -/
theorem C109_cost_violated :
    (do
      let h ← (new 3 : Outcome (Handle ℚ))
      let h ← addLinearInequality h 2 3 2
      maximize exSqrt h [1] none ⟨false, none, false, false⟩ exCfg exOracle) = .ub ∧
    (do
      let h ← (new 3 : Outcome (Handle ℚ))
      let h ← addLinearInequality h 2 3 2
      let r ← maximize exSqrt h [1, 1, 1] none ⟨false, none, false, false⟩ exCfg exOracle
      .ok (r.1.ret, r.2)) = .ok (true, [0, 1, 2]) := by
  decide +kernel

/-- **C109 (violated).** A cost vector that is too long is not refused either: it is dropped, the program is solved
without a cost, and the entries of `y` after the first three keep their zeros. -/
theorem C109_long_violated :
    (do
      let h ← (new 3 : Outcome (Handle ℚ))
      let h ← addLinearInequality h 2 3 2
      let r ← maximize exSqrt h [1, 1, 1, 1] none ⟨false, none, false, false⟩ exCfg exOracle
      .ok (r.1.ret, r.2, (h.prog.maximize [1, 1, 1, 1] 0 true).linearCost)) =
      .ok (true, [0, 1, 2], [0, 0, 0]) := by
  decide +kernel

/-- **C109 (violated).** A matrix with the wrong number of columns is accepted and numbered; the solve is then
undefined. -/
theorem C109_columns_violated :
    (do
      let h ← (new 3 : Outcome (Handle ℚ))
      let h ← addLinearInequality h 2 2 2
      .ok h.ids) = .ok [0] ∧
    (do
      let h ← (new 3 : Outcome (Handle ℚ))
      let h ← addLinearInequality h 2 2 2
      maximize exSqrt h [1, 1, 1] none ⟨false, none, false, false⟩ exCfg exOracle) = .ub := by
  decide +kernel

end Verif.MatlabLinear
