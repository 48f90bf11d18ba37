import Verif.Spec.CApi
import Verif.Lemmas.ConstraintManager

/-!
# Lemmas on the C interface
-/

namespace Verif.CApi

open Spec

variable {R : Type}

theorem mgr_add (s : CM.Manager Con) (c : Con) :
    s.addConstraint c =
      .ok (true, CM.added s c 0 ((List.range s.maxVars).map Int.ofNat)) := by
  rcases CM.step_cases s (.add c) with ⟨_, pre, v, post, he, _, hneg⟩ | ⟨_, hv⟩ | ⟨h, _⟩
  · have := ((CM.validVars_range s.maxVars).2 v (by simp only [CM.Spec.callVars] at he; simp [he])).1
    omega
  · exact absurd (CM.validVars_range s.maxVars) hv
  · exact h

theorem mgr_addEq (s : CM.Manager Con) (c : Con) (m : Nat) :
    s.addEquality c m =
      .ok (true, CM.added s c m ((List.range s.maxVars).map Int.ofNat)) := by
  rcases CM.step_cases s (.addEq c m) with ⟨_, pre, v, post, he, _, hneg⟩ | ⟨_, hv⟩ | ⟨h, _⟩
  · have := ((CM.validVars_range s.maxVars).2 v (by simp only [CM.Spec.callVars] at he; simp [he])).1
    omega
  · exact absurd (CM.validVars_range s.maxVars) hv
  · exact h

theorem mgr_addOn_valid (s : CM.Manager Con) (c : Con) (vars : List Int)
    (h : CM.Spec.ValidVars s.maxVars vars) :
    s.addConstraintOn c vars = .ok (true, CM.added s c 0 vars) := by
  rcases CM.step_cases s (.addOn c vars) with ⟨_, pre, v, post, he, _, hneg⟩ | ⟨_, hv⟩ | ⟨h', _⟩
  · have := (h.2 v (by simp only [CM.Spec.callVars] at he; simp [he])).1
    omega
  · exact absurd h hv
  · exact h'

theorem mgr_addOn_invalid (s : CM.Manager Con) (c : Con) (vars : List Int)
    (hn : ∀ v ∈ vars, 0 ≤ v) (h : ¬ CM.Spec.ValidVars s.maxVars vars) :
    s.addConstraintOn c vars = .ok (false, s) := by
  rcases CM.step_cases s (.addOn c vars) with ⟨_, pre, v, post, he, _, hneg⟩ | ⟨h', hv⟩ | ⟨_, hv⟩
  · have := hn v (by simp only [CM.Spec.callVars] at he; simp [he])
    omega
  · exact h'
  · exact absurd hv h

theorem map_ofNat_toNat (l : List Nat) : (l.map Int.ofNat).map Int.toNat = l := by
  simp [List.map_map, Function.comp_def]

theorem added_cliques (s : CM.Manager Con) (c : Con) (vars : List Nat) :
    (CM.added s c 0 (vars.map Int.ofNat)).cliques = s.cliques ++ [vars] := by
  simp only [CM.added, map_ofNat_toNat]
  simp

/-- `Program::AddConstraint(d)` always succeeds. -/
theorem add_ok (p : Program R) (c : Con) : ∃ p', p.add c = .ok (0, p') ∧
    Added p p' c (List.range p.mgr.maxVars) ∧ p'.listed = p.listed + 1 ∧
    p'.mgr.maxVars = p.mgr.maxVars ∧
    p'.initialized = p.initialized ∧ p'.workspaces = p.workspaces ∧ p'.quadratic = p.quadratic ∧
    p'.linearCost = p.linearCost := by
  refine ⟨{ p with
      mgr := CM.added p.mgr c 0 ((List.range p.mgr.maxVars).map Int.ofNat), listed := p.listed + 1 },
    by simp only [Program.add, mgr_add, Outcome.bind_ok, status, if_true], ⟨?_, ?_⟩, rfl, rfl, rfl, rfl, rfl, rfl⟩
  · simp [CM.added]
  · exact added_cliques _ _ _

theorem addOn_valid (p : Program R) (c : Con) (vars : List Int)
    (h : CM.Spec.ValidVars p.mgr.maxVars vars) : ∃ p', p.addOn c vars = .ok (0, p') ∧
    Added p p' c (vars.map Int.toNat) ∧ p'.listed = p.listed + 1 ∧
    p'.mgr.maxVars = p.mgr.maxVars ∧
    p'.initialized = p.initialized ∧ p'.workspaces = p.workspaces ∧ p'.quadratic = p.quadratic ∧
    p'.linearCost = p.linearCost := by
  refine ⟨{ p with mgr := CM.added p.mgr c 0 vars, listed := p.listed + 1 },
    by simp only [Program.addOn, mgr_addOn_valid _ _ _ h, Outcome.bind_ok, status, if_true], ⟨?_, ?_⟩, rfl, rfl, rfl, rfl, rfl, rfl⟩
  · simp [CM.added]
  · simp [CM.added]

theorem addOn_invalid (p : Program R) (c : Con) (vars : List Int) (hn : ∀ v ∈ vars, 0 ≤ v)
    (h : ¬ CM.Spec.ValidVars p.mgr.maxVars vars) : p.addOn c vars = .ok (1, p) := by
  simp only [Program.addOn, mgr_addOn_invalid _ _ _ hn h, Outcome.bind_ok, status,
    Bool.false_eq_true, if_false]

theorem added_count {p p' : Program R} {c : Con} {vars : List Nat} (h : Added p p' c vars) :
    p'.count = p.count + 1 := by
  unfold Program.count
  rw [h.1]
  simp

theorem saferCast_some {h : Option (Program R)} {p : Program R} (e : saferCast h = some p) :
    h = some p := by
  unfold saferCast at e
  cases h with
  | none => simp at e
  | some q =>
    simp only at e
    split_ifs at e
    all_goals exact e

theorem solves_fresh_or (l : List (Int × Bool)) (p : Program R) (hp : Fresh p) :
    Fresh (solves p l) ∨
      ((solves p l).initialized = true ∧ (solves p l).workspaces = 2 * p.count + 2 ∧ 0 < p.count) := by
  have hb : ∀ (q : Program R), (q.initialized = true ∧ q.workspaces = 2 * q.count + 2 ∧ 0 < q.count) →
      ∀ l, (solves q l).initialized = true ∧ (solves q l).workspaces = 2 * q.count + 2 ∧
        (solves q l).mgr = q.mgr := by
    intro q hq l
    induction l generalizing q with
    | nil => exact ⟨hq.1, hq.2.1, rfl⟩
    | cons x l ih =>
      have : q.solve x.1 x.2 = q := by
        unfold Program.solve Program.bind
        split_ifs
        all_goals first | rfl | rw [← hq.2.1, ← hq.1]
      simp only [solves, this]
      exact ih q hq
  induction l with
  | nil => exact .inl hp
  | cons x l ih =>
    simp only [solves]
    by_cases hq : ¬ (p.quadratic = false ∨ x.2 = true)
    · rw [show p.solve x.1 x.2 = p by unfold Program.solve; rw [if_pos hq]]
      exact ih
    by_cases hc : p.count = 0
    · rw [show p.solve x.1 x.2 = p by unfold Program.solve; rw [if_neg hq, if_pos hc]]
      exact ih
    · right
      have e : p.solve x.1 x.2 = { p with workspaces := 2 * p.count + 2, initialized := true } := by
        unfold Program.solve Program.bind
        rw [if_neg hq, if_neg hc, if_pos (.inl hp.1)]
      rw [e]
      have := hb { p with workspaces := 2 * p.count + 2, initialized := true }
        ⟨rfl, rfl, Nat.pos_of_ne_zero hc⟩ l
      exact ⟨this.1, this.2.1, Nat.pos_of_ne_zero hc⟩

theorem toInt_eq {x : Int} (h : 0 ≤ x) (h' : x < 2 ^ 31) : toInt x = x := by
  unfold toInt
  omega

end Verif.CApi
