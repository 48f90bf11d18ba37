import Verif.Lemmas.ConstraintManager

/-!
# C01-C04: bookkeeping of constraints, cliques and multipliers
-/

namespace Verif.CM

open Spec

variable {κ : Type}

/-- **C01** (adding a cone constraint on explicit variables). For a non-negative variable list the
call returns normally, reports success exactly for valid lists, changes nothing on failure, and on
success appends exactly this constraint. -/
theorem C01_addConstraint (s : Manager κ) (x : κ) (vars : List Int) (hnn : ∀ v ∈ vars, 0 ≤ v) :
    ∃ b s', s.addConstraintOn x vars = .ok (b, s') ∧
      (b = true ↔ vars.Nodup ∧ ∀ v ∈ vars, v < s.maxVars) ∧
      (b = false → s' = s) ∧
      (b = true → s'.eqs = s.eqs ++ [(x, vars.length)] ∧
        s'.cliques = s.cliques ++ [vars.map Int.toNat] ∧ s'.dualVars = s.dualVars ++ [[]] ∧
        s'.maxVars = s.maxVars ∧ s'.dualStart = s.dualStart) := by
  rcases step_cases s (.addOn x vars) with ⟨_, pre, v, post, he, _, hneg⟩ | ⟨h, hv⟩ | ⟨h, hv⟩
  · exfalso
    have := hnn v (by simp only [callVars] at he; simp [he])
    omega
  · refine ⟨false, s, h, ⟨by simp, fun hh => absurd ⟨hh.1, fun v hm => ⟨hnn v hm, hh.2 v hm⟩⟩ hv⟩,
      by simp, by simp⟩
  · refine ⟨true, _, h, ⟨fun _ => ⟨hv.1, fun v hm => (hv.2 v hm).2⟩, by simp⟩, by simp, ?_⟩
    simp [added, callVars, callRows, callPayload]

example : ∃ s' : Manager Unit, (Manager.empty.setNumberOfVariables 4).addConstraintOn () [3, 0] =
    .ok (true, s') ∧ s'.cliques = [[3, 0]] := ⟨_, rfl, rfl⟩

/-- **C01** (adding an equality constraint on explicit variables). -/
theorem C01_addEquality (s : Manager κ) (x : κ) (m : Nat) (vars : List Int)
    (hnn : ∀ v ∈ vars, 0 ≤ v) :
    ∃ b s', s.addEqualityOn x m vars = .ok (b, s') ∧
      (b = true ↔ vars.Nodup ∧ ∀ v ∈ vars, v < s.maxVars) ∧
      (b = false → s' = s) ∧
      (b = true → s'.eqs = s.eqs ++ [(x, m + vars.length)] ∧
        s'.dualVars = s.dualVars ++ [List.range' s.dualStart m] ∧
        s'.cliques = s.cliques ++ [vars.map Int.toNat ++ List.range' s.dualStart m] ∧
        s'.maxVars = s.maxVars ∧ s'.dualStart = s.dualStart + m) := by
  rcases step_cases s (.addEqOn x m vars) with ⟨_, pre, v, post, he, _, hneg⟩ | ⟨h, hv⟩ | ⟨h, hv⟩
  · exfalso
    have := hnn v (by simp only [callVars] at he; simp [he])
    omega
  · refine ⟨false, s, h, ⟨by simp, fun hh => absurd ⟨hh.1, fun v hm => ⟨hnn v hm, hh.2 v hm⟩⟩ hv⟩,
      by simp, by simp⟩
  · refine ⟨true, _, h, ⟨fun _ => ⟨hv.1, fun v hm => (hv.2 v hm).2⟩, by simp⟩, by simp, ?_⟩
    simp [added, callVars, callRows, callPayload]

example : ∃ s' : Manager Unit,
    (Manager.empty.setNumberOfVariables 4).addEqualityOn () 2 [3, 0] = .ok (true, s') ∧
      s'.cliques = [[3, 0, 4, 5]] ∧ s'.dualVars = [[4, 5]] := ⟨_, rfl, rfl, rfl⟩

/-- **C01** (calls without a variable list): they always succeed, and refer to every variable. -/
theorem C01_allVariables (s : Manager κ) (x : κ) (m : Nat) :
    (∃ s', s.addConstraint x = .ok (true, s') ∧
      s'.cliques = s.cliques ++ [List.range s.maxVars]) ∧
    (∃ s', s.addEquality x m = .ok (true, s') ∧
      s'.cliques = s.cliques ++ [List.range s.maxVars ++ List.range' s.dualStart m]) := by
  have hv := validVars_range s.maxVars
  have hm : ((List.range s.maxVars).map Int.ofNat).map Int.toNat = List.range s.maxVars := by
    simp [List.map_map, Function.comp_def]
  constructor
  · rcases step_cases s (.add x) with ⟨_, pre, v, post, he, _, hneg⟩ | ⟨h, hv'⟩ | ⟨h, _⟩
    · simp only [callVars] at he
      have := (hv.2 v (by simp [he])).1
      omega
    · exact absurd hv hv'
    · refine ⟨_, h, ?_⟩
      simp only [added, callVars, callRows]
      rw [hm]; simp
  · rcases step_cases s (.addEq x m) with ⟨_, pre, v, post, he, _, hneg⟩ | ⟨h, hv'⟩ | ⟨h, _⟩
    · simp only [callVars] at he
      have := (hv.2 v (by simp [he])).1
      omega
    · exact absurd hv hv'
    · refine ⟨_, h, ?_⟩
      simp only [added, callVars, callRows]
      rw [hm]

example : ∃ s' : Manager Unit,
    (Manager.empty.setNumberOfVariables 3).addEquality () 2 = .ok (true, s') ∧
      s'.cliques = [[0, 1, 2, 3, 4]] := ⟨_, rfl, rfl⟩

/-- **C01** (precondition). The call is undefined behaviour exactly if a negative entry follows a
valid prefix; so "non-negative" is the exact precondition up to lists that are refused earlier. -/
theorem C01_negative_index_ub (s : Manager κ) (x : κ) (vars : List Int) :
    s.addConstraintOn x vars = .ub ↔
      ∃ pre v post, vars = pre ++ v :: post ∧
        (pre.Nodup ∧ ∀ u ∈ pre, 0 ≤ u ∧ u < (s.maxVars : Int)) ∧ v < 0 := by
  rcases step_cases s (.addOn x vars) with ⟨h, hh⟩ | ⟨h, hv⟩ | ⟨h, hv⟩
  · exact ⟨fun _ => hh, fun _ => h⟩
  · constructor
    · intro h'
      change s.step (.addOn x vars) = .ub at h'
      rw [h] at h'; simp at h'
    · intro h'
      have := (isUnique_ub_iff s.maxVars vars).2 h'
      simp [Manager.addConstraintOn, this, Outcome.bind]
  · constructor
    · intro h'
      change s.step (.addOn x vars) = .ub at h'
      rw [h] at h'; simp at h'
    · intro h'
      have := (isUnique_ub_iff s.maxVars vars).2 h'
      simp [Manager.addConstraintOn, this, Outcome.bind]

example : (Manager.empty.setNumberOfVariables 3).addConstraintOn () [1, -1] = .ub := by decide
example : (Manager.empty.setNumberOfVariables 3).addConstraintOn () [7, -1] =
    .ok (false, Manager.empty.setNumberOfVariables 3) := by decide

/-- **C02.** After the number of variables is fixed to `N`, whatever is added afterwards, the
multipliers of all equality constraints in order of addition are `N, N+1, …, K-1`, where `K` is
the reported size of the linear system. -/
theorem C02_multipliers_contiguous (N : Nat) (cs : List (Call κ)) (s : Manager κ)
    (h : (Manager.empty.setNumberOfVariables N).run cs = .ok s) :
    N ≤ s.sizeOfKKTSystem ∧
    s.dualVars.flatten = List.range' N (s.sizeOfKKTSystem - N) ∧ s.dualVars.flatten.Nodup ∧
    ∀ (i : Nat) (c d : List Nat), s.cliques[i]? = some c → s.dualVars[i]? = some d →
      c.filter (fun k => N ≤ k) = d := by
  have hi := (run_inv cs (inv_init N) h).1
  rw [sizeOfKKTSystem_eq, ← hi.start]
  refine ⟨?_, hi.duals, ?_, hi.mults⟩
  · rw [hi.start, numUnknowns, hi.maxVars]; omega
  · rw [hi.duals]; exact List.nodup_range'

example : ∃ s : Manager Unit, (Manager.empty.setNumberOfVariables 3).run
    [.addEqOn () 2 [0, 2], .addOn () [1, 1], .add (), .addEq () 1] = .ok s ∧
    s.dualVars = [[3, 4], [], [5]] ∧ s.sizeOfKKTSystem = 6 := ⟨_, rfl, rfl, rfl⟩

/-- **C03.** In every reachable program each index set is duplicate free, lies inside the linear
system, and its size is the number of variables its assembler was sized for. -/
theorem C03_indices_in_system (N : Nat) (cs : List (Call κ)) (s : Manager κ)
    (h : (Manager.empty.setNumberOfVariables N).run cs = .ok s) :
    (∀ c ∈ s.cliques, c.Nodup ∧ ∀ k ∈ c, k < s.sizeOfKKTSystem) ∧
    s.cliques.map List.length = s.eqs.map Prod.snd := by
  have hi := (run_inv cs (inv_init N) h).1
  rw [sizeOfKKTSystem_eq, ← hi.start]
  exact ⟨fun c hc => ⟨hi.nodup c hc, hi.bound c hc⟩, hi.sizes⟩

example : ∃ s : Manager Unit, (Manager.empty.setNumberOfVariables 3).run
    [.addEqOn () 2 [0, 2], .addOn () [1, 2]] = .ok s ∧ s.cliques = [[0, 2, 3, 4], [1, 2]] ∧
    s.eqs.map Prod.snd = [4, 2] := ⟨_, rfl, rfl, rfl⟩

/-- **C04.** A call that returns appends at most one constraint (exactly one when it reports
success, none otherwise), and never changes what was there; hence the same holds for any
sequence of further calls. -/
theorem C04_identifiers_stable (N : Nat) (cs cs' : List (Call κ)) (s s' : Manager κ)
    (h : (Manager.empty.setNumberOfVariables N).run cs = .ok s) (h' : s.run cs' = .ok s') :
    (∀ c b t, s.step c = .ok (b, t) →
      t.eqs.length = s.eqs.length + (if b then 1 else 0) ∧ (b = false → t = s) ∧
      (b = true → t.eqs[s.eqs.length]? = some (callPayload c, callRows c + (callVars s.maxVars c).length))) ∧
    (∀ i, i < s.eqs.length → s'.eqs[i]? = s.eqs[i]? ∧ s'.cliques[i]? = s.cliques[i]? ∧
      s'.dualVars[i]? = s.dualVars[i]?) ∧
    s'.cliques.length = s'.eqs.length ∧ s'.dualVars.length = s'.eqs.length := by
  have hi := (run_inv cs (inv_init N) h).1
  obtain ⟨hi', he⟩ := run_inv cs' hi h'
  refine ⟨?_, ?_, hi'.lenC, hi'.lenD⟩
  · intro c b t ht
    rcases step_cases s c with ⟨h1, _⟩ | ⟨h1, _⟩ | ⟨h1, _⟩ <;> rw [h1] at ht <;>
      simp at ht <;> obtain ⟨rfl, rfl⟩ := ht <;> simp [added]
  · intro i hlt
    have pre : ∀ {α : Type} {l l' : List α}, l <+: l' → i < l.length → l'[i]? = l[i]? := by
      intro α l l' hp hl
      obtain ⟨t, rfl⟩ := hp
      exact List.getElem?_append_left hl
    exact ⟨pre he.1 hlt, pre he.2.1 (by rw [hi.lenC]; exact hlt),
      pre he.2.2.1 (by rw [hi.lenD]; exact hlt)⟩

example : ∃ s s' : Manager Nat, (Manager.empty.setNumberOfVariables 3).run
    [.addEqOn 7 2 [0, 2], .addOn 8 [1, 2]] = .ok s ∧ s.run [.addOn 9 [5], .addEq 10 1] = .ok s' ∧
    s'.eqs = [(7, 4), (8, 2), (10, 4)] ∧ s'.cliques = [[0, 2, 3, 4], [1, 2], [0, 1, 2, 5]] :=
  ⟨_, _, rfl, rfl, rfl, rfl⟩

/-- **C02 needs its premise** (finding F12): setting the number of variables again after an equality
constraint was added makes two constraints share a multiplier index. -/
theorem C02_violated_by_late_resize :
    ∃ (s s' : Manager Unit),
      (Manager.empty.setNumberOfVariables 2).run [.addEq () 1] = .ok s ∧
      (s.setNumberOfVariables 2).run [.addEq () 1] = .ok s' ∧
      ¬ s'.dualVars.flatten.Nodup ∧
      ¬ (∀ c ∈ (s.setNumberOfVariables 1).cliques, ∀ k ∈ c,
          k < (s.setNumberOfVariables 1).sizeOfKKTSystem) :=
  ⟨_, _, rfl, rfl, by decide, by decide⟩

end Verif.CM
