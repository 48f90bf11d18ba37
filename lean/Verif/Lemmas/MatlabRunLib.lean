import Verif.Model.MatlabRun
import Verif.Lemmas.ConstraintManager
import Verif.Lemmas.CApi
import Verif.Lemmas.Solve

/-!
# Lemmas about the class `ConexProgram` of the MATLAB interface
-/

namespace Verif.Matlab

open SolveLoop (bind_eq_ok)

variable {R : Type} [Field R]

/-- The object `h` holds the inequalities `Ls` in `m` variables; `regs` are the numbers of variables of the
constraints as the library knows them. -/
structure Built (m : Nat) (Ls : List (Lmi R)) (regs : List Nat) (h : Handle R) : Prop where
  small : m < 2 ^ 31
  max : h.prog.mgr.maxVars = m
  cost : h.prog.linearCost = List.replicate m 0
  lmis : h.lmis = Ls
  ids : h.ids = (List.range Ls.length).map Int.ofNat
  regs : h.prog.mgr.eqs.map Prod.snd = regs
  count : h.prog.mgr.eqs.length = Ls.length

theorem newProgram_built {m : Nat} {h : Handle R} (hh : newProgram m = .ok h) : Built m [] [] h := by
  unfold newProgram at hh
  by_cases h31 : 2 ^ 31 ≤ m
  · rw [if_pos h31] at hh
    cases hh
  rw [if_neg h31] at hh
  have hs : m < 2 ^ 31 := Nat.lt_of_not_le h31
  by_cases hm : m = 0
  · subst hm
    have : (CApi.setVariables (some (CApi.Program.new 0 : CApi.Program R)) (0 : Nat)) =
        .ok ⟨1, some (CApi.Program.new 0), none⟩ := by simp [CApi.setVariables, CApi.refused]
    rw [this] at hh
    simp only [Outcome.bind_ok, Option.getD_some, Outcome.ok.injEq] at hh
    subst hh
    exact ⟨hs, rfl, rfl, rfl, rfl, rfl, rfl⟩
  · have : (CApi.setVariables (some (CApi.Program.new 0 : CApi.Program R)) (m : Nat)) =
        .ok ⟨0, some ((CApi.Program.new 0 : CApi.Program R).setNumberOfVariables m), none⟩ := by
      have h1 : ¬ ((m : Int) < 1) := by omega
      simp [CApi.setVariables, CApi.saferCast, CApi.Program.new, CApi.Program.setNumberOfVariables,
        CM.Manager.setNumberOfVariables, CM.Manager.empty, h1]
    rw [this] at hh
    simp only [Outcome.bind_ok, Option.getD_some, Outcome.ok.injEq] at hh
    subst hh
    exact ⟨hs, rfl, rfl, rfl, rfl, rfl, rfl⟩

theorem newProgram_ok {m : Nat} (hm : m < 2 ^ 31) : ∃ h : Handle R, newProgram m = .ok h := by
  unfold newProgram
  rw [if_neg (Nat.not_le.2 hm)]
  by_cases h0 : m = 0
  · subst h0
    exact ⟨_, rfl⟩
  · have h1 : ¬ ((m : Int) < 1) := by omega
    simp [CApi.setVariables, CApi.saferCast, CApi.Program.new, CApi.Program.setNumberOfVariables,
        CM.Manager.setNumberOfVariables, CM.Manager.empty, h1]

theorem verify_ok {n k : Nat} (hn : n ≠ 0) : verifyLmiData n (n * k) n n = .ok (k, n) := by
  unfold verifyLmiData
  rw [if_neg (by simp), if_neg (by simp), if_neg (by simp), if_neg hn,
    Nat.mul_div_cancel_left _ (Nat.pos_of_ne_zero hn)]

theorem verify_zero {k : Nat} : verifyLmiData 0 (0 * k) 0 0 = .ub := by simp [verifyLmiData]

theorem ofNat_inj : Function.Injective Int.ofNat := fun a b h => by simpa using h

theorem valid_range (m : Nat) : CM.Spec.ValidVars m ((List.range m).map Int.ofNat) := by
  refine ⟨List.nodup_range.map ofNat_inj, ?_⟩
  intro v hv
  obtain ⟨k, hk, rfl⟩ := List.mem_map.1 hv
  have := List.mem_range.1 hk
  simp only [Int.ofNat_eq_natCast]
  omega

theorem addDense_eq {m : Nat} {Ls : List (Lmi R)} {regs : List Nat} {h : Handle R} (hb : Built m Ls regs h)
    {L : Lmi R} (hn : L.n ≠ 0) : ∃ h', addDense h L = .ok h' ∧ Built m (Ls ++ [L]) (regs ++ [m]) h' := by
  have hu : CM.isUnique m ((List.range m).map Int.ofNat) = .ok true :=
    (CM.isUnique_true_iff _ _).2 (valid_range m)
  unfold addDense
  rw [verify_ok hn]
  simp only [Outcome.bind_ok, CApi.addDenseLmi, CApi.Program.add, CM.Manager.addConstraint,
    CM.Manager.addConstraintOn, hb.max, hu, Outcome.bind, if_true]
  refine ⟨_, rfl, ⟨hb.small, ?_, hb.cost, ?_, ?_, ?_, ?_⟩⟩
  · rfl
  · simp [CApi.Program.count, hb.lmis]
  · simp [CApi.Program.count, hb.ids, hb.count, List.range_succ]
  · simp [hb.regs]
  · simp [hb.count]

omit [Field R] in
theorem toInt_ofNat {w : Nat} (h : w < 2 ^ 31) : CApi.toInt (Int.ofNat w) = Int.ofNat w :=
  CApi.toInt_eq (Int.natCast_nonneg w) (by simp only [Int.ofNat_eq_natCast]; omega)

theorem addSparse_eq {m : Nat} {Ls : List (Lmi R)} {regs : List Nat} {h : Handle R} (hb : Built m Ls regs h)
    {L : Lmi R} (hn : L.n ≠ 0) (hnd : L.vars.Nodup) (hlt : ∀ v ∈ L.vars, v < m) :
    ∃ h', addSparse h L = .ok h' ∧ Built m (Ls ++ [L]) (regs ++ [L.vars.length]) h' := by
  have e : (L.vars.map Int.ofNat).map CApi.toInt = L.vars.map Int.ofNat := by
    rw [List.map_map]
    refine List.map_congr_left fun w hw => ?_
    rw [Function.comp_apply]
    exact toInt_ofNat (Nat.lt_trans (hlt w hw) hb.small)
  have hu : CM.isUnique m (L.vars.map Int.ofNat) = .ok true := by
    refine (CM.isUnique_true_iff _ _).2 ⟨hnd.map ofNat_inj, ?_⟩
    intro v hv
    obtain ⟨k, hk, rfl⟩ := List.mem_map.1 hv
    have := hlt k hk
    simp only [Int.ofNat_eq_natCast]
    omega
  unfold addSparse
  rw [verify_ok hn]
  simp only [Outcome.bind_ok, CApi.addSparseLmi, CApi.Program.addOn,
    CM.Manager.addConstraintOn, hb.max, e, hu, Outcome.bind, if_true]
  refine ⟨_, rfl, ⟨hb.small, ?_, hb.cost, ?_, ?_, ?_, ?_⟩⟩
  · rfl
  · simp [CApi.Program.count, hb.lmis]
  · simp [CApi.Program.count, hb.ids, hb.count, List.range_succ]
  · simp [hb.regs]
  · simp [hb.count]

theorem addAll_eq {m : Nat} : ∀ (Ls : List (Lmi R)) {Ls0 : List (Lmi R)} {regs : List Nat} {h : Handle R},
    Built m Ls0 regs h → (∀ L ∈ Ls, L.n ≠ 0 ∧ L.vars.Nodup ∧ ∀ v ∈ L.vars, v < m) →
    ∃ h', addAll Ls h = .ok h' ∧ Built m (Ls0 ++ Ls) (regs ++ Ls.map fun L => L.vars.length) h' := by
  intro Ls
  induction Ls with
  | nil => intro Ls0 regs h hb _; exact ⟨h, rfl, by simpa using hb⟩
  | cons L Ls ih =>
    intro Ls0 regs h hb hL
    obtain ⟨a, b, c⟩ := hL L List.mem_cons_self
    obtain ⟨h1, e1, hb1⟩ := addSparse_eq hb a b c
    obtain ⟨h2, e2, hb2⟩ := ih hb1 fun M hM => hL M (List.mem_cons_of_mem _ hM)
    refine ⟨h2, ?_, by simpa using hb2⟩
    simp only [addAll, e1, Outcome.bind_ok, e2]

omit [Field R] in
theorem addAll_orders : ∀ (Ls : List (Lmi R)) {h h' : Handle R}, addAll Ls h = .ok h' →
    ∀ L ∈ Ls, L.n ≠ 0 := by
  intro Ls
  induction Ls with
  | nil => intro h h' _ L hL; simp at hL
  | cons L Ls ih =>
    intro h h' hh M hM
    simp only [addAll, bind_eq_ok] at hh
    obtain ⟨h1, e1, e2⟩ := hh
    rcases List.mem_cons.1 hM with rfl | hM
    · intro h0
      unfold addSparse at e1
      rw [h0, verify_zero] at e1
      simp at e1
    · exact ih e2 M hM

omit [Field R] in
theorem addDense_order {h h' : Handle R} {L : Lmi R} (hh : addDense h L = .ok h') : L.n ≠ 0 := by
  intro h0
  unfold addDense at hh
  rw [h0, verify_zero] at hh
  simp at hh

theorem maximize_mgr (p : CApi.Program R) (b : List R) :
    (p.maximize b 0 false).mgr = p.mgr ∧
      (p.maximize b 0 false).linearCost = (p.clearLinearCosts.addLinearCost (b.map fun x => -x)).2.linearCost := by
  have hs : ∀ p : CApi.Program R, (p.solve 0 false).mgr = p.mgr ∧ (p.solve 0 false).linearCost = p.linearCost := by
    intro p
    unfold CApi.Program.solve CApi.Program.bind
    split_ifs <;> exact ⟨rfl, rfl⟩
  have ha : (p.clearLinearCosts.addLinearCost (b.map fun x => -x)).2.mgr = p.mgr := by
    unfold CApi.Program.addLinearCost
    split_ifs <;> rfl
  exact ⟨(hs _).1.trans ha, (hs _).2⟩

theorem maximize_eq {m : Nat} {Ls : List (Lmi R)} {regs : List Nat} {h : Handle R} (hb : Built m Ls regs h)
    (sol : Solver R) (b : Nat → R) :
    maximize sol h m b = (if regs ≠ Ls.map fun L => L.vars.length then .ub else
      .ok ((sol m Ls fun i => if i < m then b i else 0).1, (sol m Ls fun i => if i < m then b i else 0).2.1,
        Ls.mapIdx fun k L => (L.n * L.n, (sol m Ls fun i => if i < m then b i else 0).2.2 k))) := by
  obtain ⟨e1, e2⟩ := maximize_mgr h.prog ((List.range m).map b)
  have hl : (h.prog.maximize ((List.range m).map b) 0 false).linearCost = (List.range m).map fun i => -b i := by
    rw [e2]
    unfold CApi.Program.addLinearCost CApi.Program.clearLinearCosts
    rw [if_neg (by simp [hb.max])]
    simp only [hb.cost]
    apply List.ext_getElem
    · simp
    · intro i h1 h2
      simp
  have hf : (fun i => -((h.prog.maximize ((List.range m).map b) 0 false).linearCost.getD i 0)) =
      fun i => if i < m then b i else 0 := by
    funext i
    rw [hl, List.getD_eq_getElem?_getD, List.getElem?_map]
    by_cases hi : i < m
    · simp [hi]
    · simp [hi]
  unfold maximize
  simp only [e1, hb.regs, hb.lmis, hb.max, hf]
  have hall : (h.ids.all fun id => decide (0 ≤ id ∧ id < Ls.length)) = true := by
    rw [hb.ids, List.all_eq_true]
    intro v hv
    obtain ⟨k, hk, rfl⟩ := List.mem_map.1 hv
    have := List.mem_range.1 hk
    simp only [decide_eq_true_eq, Int.ofNat_eq_natCast]
    omega
  rw [hall]
  simp only [if_true, hb.ids]
  split_ifs with h1
  · rfl
  · refine congrArg _ (congrArg _ (congrArg _ ?_))
    apply List.ext_getElem
    · simp
    · intro i h1 h2
      simp only [List.length_map, List.length_range] at h1
      simp [h1]

theorem assemble_get : ∀ {s : List Nat} {off : Nat} {cells : List (Nat × (Nat → R))} {x0 x : Nat → R},
    assemble s off cells x0 = .ok x → ∀ t < off, x t = x0 t := by
  intro s
  induction s with
  | nil =>
    intro off cells x0 x h t _
    simp only [assemble, Outcome.ok.injEq] at h
    rw [h]
  | cons n ns ih =>
    intro off cells x0 x h t ht
    cases cells with
    | nil => simp [assemble] at h
    | cons c cs =>
      simp only [assemble] at h
      by_cases h1 : c.1 = n * n ∨ c.1 = 1
      · rw [if_pos h1] at h
        rw [ih h t (by omega)]
        simp only [show ¬ (off ≤ t ∧ t < off + n * n) by omega, if_false]
      · rw [if_neg h1] at h
        cases h

end Verif.Matlab
