import Verif.Spec.ConstraintManager
import Mathlib.Data.List.Nodup
import Mathlib.Data.List.Range
import Mathlib.Tactic.Linarith
import Mathlib.Tactic.SplitIfs

namespace Verif.CM

open Spec

variable {κ : Type}

/-- The loop of `IsUnique`, characterised completely. -/
theorem isUniqueLoop_spec (N : Nat) (xs : List Int) :
    ∀ (seen : List Int) (y : Nat → Nat), ValidVars N seen →
      (∀ k : Nat, y k = seen.count (k : Int)) →
      (isUniqueLoop N y xs = .ok true ↔ ValidVars N (seen ++ xs)) ∧
      (isUniqueLoop N y xs = .ub ↔
        ∃ pre v post, xs = pre ++ v :: post ∧ ValidVars N (seen ++ pre) ∧ v < 0) ∧
      (isUniqueLoop N y xs = .ok true ∨ isUniqueLoop N y xs = .ok false ∨
        isUniqueLoop N y xs = .ub) := by
  induction xs with
  | nil =>
    intro seen y hs hy
    simp [isUniqueLoop, hs]
  | cons x xs ih =>
    intro seen y hs hy
    unfold isUniqueLoop
    by_cases h1 : (N : Int) ≤ x
    · simp only [h1, if_true]
      refine ⟨⟨fun h => by simp at h, fun h => ?_⟩, ⟨fun h => by simp at h, ?_⟩, by simp⟩
      · have := (h.2 x (by simp)).2
        omega
      · rintro ⟨pre, v, post, hxs, hv, hneg⟩
        cases pre with
        | nil =>
          simp at hxs
          omega
        | cons a pre =>
          simp at hxs
          have := (hv.2 a (by simp)).2
          omega
    · simp only [h1, if_false]
      by_cases h2 : x < 0
      · simp only [h2, if_true]
        refine ⟨⟨fun h => by simp at h, fun h => ?_⟩, ⟨fun _ => ?_, fun _ => trivial⟩, by simp⟩
        · have := (h.2 x (by simp)).1
          omega
        · exact ⟨[], x, xs, rfl, by simpa using hs, h2⟩
      · simp only [h2, if_false]
        have hx : ((x.toNat : Nat) : Int) = x := by omega
        by_cases h3 : x ∈ seen
        · have hc : 0 < seen.count x := List.count_pos_iff.2 h3
          have : y x.toNat + 1 > 1 := by
            simp only [hy, hx]; omega
          simp only [if_true, this]
          refine ⟨⟨fun h => by simp at h, fun h => ?_⟩, ⟨fun h => by simp at h, ?_⟩, by simp⟩
          · have := h.1
            rw [List.nodup_append] at this
            exact absurd rfl (this.2.2 x h3 x (by simp))
          · rintro ⟨pre, v, post, hxs, hv, hneg⟩
            cases pre with
            | nil =>
              simp at hxs
              omega
            | cons a pre =>
              simp at hxs
              have := hv.1
              rw [List.nodup_append] at this
              exact absurd rfl (this.2.2 x h3 x (by simp [hxs.1]))
        · have hc : seen.count x = 0 := List.count_eq_zero.2 h3
          have : ¬ y x.toNat + 1 > 1 := by
            simp only [hy, hx]; omega
          simp only [if_true, this, if_false]
          have hs' : ValidVars N (seen ++ [x]) := by
            refine ⟨?_, ?_⟩
            · rw [List.nodup_append]
              refine ⟨hs.1, by simp, ?_⟩
              intro a ha b hb
              simp at hb
              rintro rfl
              exact h3 (hb ▸ ha)
            · intro a ha
              rcases List.mem_append.1 ha with ha | ha
              · exact hs.2 a ha
              · simp at ha
                omega
          have := ih (seen ++ [x]) (fun k => if k = x.toNat then y k + 1 else y k) hs' (by
            intro k
            by_cases hk : k = x.toNat
            · subst hk
              simp [hy, List.count_append, hx]
            · have : (k : Int) ≠ x := by omega
              simp [hk, hy, List.count_append, Ne.symm this])
          obtain ⟨i1, i2, i3⟩ := this
          refine ⟨by rw [i1]; simp, ?_, i3⟩
          rw [i2]
          constructor
          · rintro ⟨pre, v, post, hxs, hv, hneg⟩
            exact ⟨x :: pre, v, post, by simp [hxs], by simpa using hv, hneg⟩
          · rintro ⟨pre, v, post, hxs, hv, hneg⟩
            cases pre with
            | nil =>
              simp at hxs
              omega
            | cons a pre =>
              simp at hxs
              exact ⟨pre, v, post, hxs.2, by simpa [hxs.1] using hv, hneg⟩

theorem isUnique_true_iff (N : Nat) (xs : List Int) :
    isUnique N xs = .ok true ↔ ValidVars N xs := by
  have := (isUniqueLoop_spec N xs [] (fun _ => 0) ⟨by simp, by simp⟩ (by simp)).1
  simpa [isUnique] using this

theorem isUnique_ub_iff (N : Nat) (xs : List Int) :
    isUnique N xs = .ub ↔ ∃ pre v post, xs = pre ++ v :: post ∧ ValidVars N pre ∧ v < 0 := by
  have := (isUniqueLoop_spec N xs [] (fun _ => 0) ⟨by simp, by simp⟩ (by simp)).2.1
  simpa [isUnique] using this

theorem isUnique_cases (N : Nat) (xs : List Int) :
    isUnique N xs = .ok true ∨ isUnique N xs = .ok false ∨ isUnique N xs = .ub :=
  (isUniqueLoop_spec N xs [] (fun _ => 0) ⟨by simp, by simp⟩ (by simp)).2.2

theorem validVars_range (N : Nat) : ValidVars N ((List.range N).map Int.ofNat) := by
  constructor
  · exact List.nodup_range.map (fun a b h => by simpa using h)
  · intro x hx
    simp at hx
    obtain ⟨a, ha, rfl⟩ := hx
    omega

theorem foldl_add_length (l : List (List Nat)) (a : Nat) :
    l.foldl (fun acc dv => acc + dv.length) a = a + (l.map List.length).sum := by
  induction l generalizing a with
  | nil => simp
  | cons x xs ih => simp [ih]; omega

theorem sizeOfKKTSystem_eq (s : Manager κ) : s.sizeOfKKTSystem = numUnknowns s := by
  simp [Manager.sizeOfKKTSystem, numUnknowns, foldl_add_length]

/-- The effect of a successful call. -/
def added (s : Manager κ) (x : κ) (m : Nat) (vars : List Int) : Manager κ :=
  { s with
    eqs := s.eqs ++ [(x, m + vars.length)]
    cliques := s.cliques ++ [vars.map Int.toNat ++ List.range' s.dualStart m]
    dualVars := s.dualVars ++ [List.range' s.dualStart m]
    dualStart := s.dualStart + m }

theorem range_map_add (m d : Nat) : (List.range m).map (fun i => i + d) = List.range' d m := by
  rw [List.range'_eq_map_range]
  exact List.map_congr_left (fun a _ => Nat.add_comm a d)

/-- One call either is undefined behaviour, is refused and changes nothing, or appends exactly one
constraint. -/
theorem step_cases (s : Manager κ) (c : Call κ) :
    (s.step c = .ub ∧ ∃ pre v post, callVars s.maxVars c = pre ++ v :: post ∧
        ValidVars s.maxVars pre ∧ v < 0) ∨
    (s.step c = .ok (false, s) ∧ ¬ ValidVars s.maxVars (callVars s.maxVars c)) ∨
    (s.step c = .ok (true, added s (callPayload c) (callRows c) (callVars s.maxVars c)) ∧
        ValidVars s.maxVars (callVars s.maxVars c)) := by
  have key : ∀ vars : List Int,
      (isUnique s.maxVars vars = .ub ∧ ∃ pre v post, vars = pre ++ v :: post ∧
        ValidVars s.maxVars pre ∧ v < 0) ∨
      (isUnique s.maxVars vars = .ok false ∧ ¬ ValidVars s.maxVars vars) ∨
      (isUnique s.maxVars vars = .ok true ∧ ValidVars s.maxVars vars) := by
    intro vars
    rcases isUnique_cases s.maxVars vars with h | h | h
    · exact .inr (.inr ⟨h, (isUnique_true_iff _ _).1 h⟩)
    · refine .inr (.inl ⟨h, fun hv => ?_⟩)
      have := (isUnique_true_iff _ _).2 hv
      rw [h] at this
      simp at this
    · exact .inl ⟨h, (isUnique_ub_iff _ _).1 h⟩
  have full : isUnique s.maxVars ((List.range s.maxVars).map Int.ofNat) = .ok true :=
    (isUnique_true_iff _ _).2 (validVars_range _)
  cases c with
  | add x =>
    refine .inr (.inr ⟨?_, validVars_range _⟩)
    simp [Manager.step, Manager.addConstraint, Manager.addConstraintOn, full, Outcome.bind, added,
      callVars, callRows, callPayload]
  | addEq x m =>
    refine .inr (.inr ⟨?_, validVars_range _⟩)
    simp [Manager.step, Manager.addEquality, Manager.addEqualityOn, full, Outcome.bind, added,
      callVars, callRows, callPayload, range_map_add]
  | addOn x vars =>
    rcases key vars with ⟨h, h'⟩ | ⟨h, h'⟩ | ⟨h, h'⟩
    · exact .inl ⟨by simp [Manager.step, Manager.addConstraintOn, h, Outcome.bind], h'⟩
    · exact .inr (.inl ⟨by simp [Manager.step, Manager.addConstraintOn, h, Outcome.bind], h'⟩)
    · exact .inr (.inr ⟨by simp [Manager.step, Manager.addConstraintOn, h, Outcome.bind, added,
        callVars, callRows, callPayload], h'⟩)
  | addEqOn x m vars =>
    rcases key vars with ⟨h, h'⟩ | ⟨h, h'⟩ | ⟨h, h'⟩
    · exact .inl ⟨by simp [Manager.step, Manager.addEqualityOn, h, Outcome.bind], h'⟩
    · exact .inr (.inl ⟨by simp [Manager.step, Manager.addEqualityOn, h, Outcome.bind], h'⟩)
    · exact .inr (.inr ⟨by simp [Manager.step, Manager.addEqualityOn, h, Outcome.bind, added,
        callVars, callRows, callPayload, range_map_add], h'⟩)

/-- The state invariant behind C02-C04. -/
structure Inv (N : Nat) (s : Manager κ) : Prop where
  maxVars : s.maxVars = N
  lenC : s.cliques.length = s.eqs.length
  lenD : s.dualVars.length = s.eqs.length
  start : s.dualStart = numUnknowns s
  duals : s.dualVars.flatten = List.range' N (s.dualStart - N)
  nodup : ∀ c ∈ s.cliques, c.Nodup
  bound : ∀ c ∈ s.cliques, ∀ k ∈ c, k < s.dualStart
  sizes : s.cliques.map List.length = s.eqs.map Prod.snd
  mults : ∀ i : Nat, ∀ c d, s.cliques[i]? = some c → s.dualVars[i]? = some d →
    c.filter (fun k => N ≤ k) = d

theorem inv_init (N : Nat) : Inv N (Manager.empty.setNumberOfVariables N : Manager κ) := by
  constructor <;> simp [Manager.setNumberOfVariables, Manager.empty, numUnknowns]

theorem numUnknowns_added (s : Manager κ) (x : κ) (m : Nat) (vars : List Int) :
    numUnknowns (added s x m vars) = numUnknowns s + m := by
  simp [numUnknowns, added]
  omega

theorem inv_added {N : Nat} {s : Manager κ} (h : Inv N s) (x : κ) (m : Nat) (vars : List Int)
    (hv : ValidVars s.maxVars vars) : Inv N (added s x m vars) := by
  have hN : N ≤ s.dualStart := by
    rw [h.start, numUnknowns, h.maxVars]; omega
  have hmem : ∀ k ∈ vars.map Int.toNat, k < N := by
    intro k hk
    simp at hk
    obtain ⟨a, ha, rfl⟩ := hk
    have := hv.2 a ha
    rw [h.maxVars] at this
    omega
  constructor
  · exact h.maxVars
  · simp [added, h.lenC]
  · simp [added, h.lenD]
  · rw [numUnknowns_added, ← h.start]; rfl
  · have e : s.dualStart + m - N = (s.dualStart - N) + m := by omega
    have e2 : N + (s.dualStart - N) = s.dualStart := by omega
    have := List.range'_append (s := N) (m := s.dualStart - N) (n := m) (step := 1)
    simp only [one_mul, e2] at this
    simp [added, h.duals, e, ← this]
  · intro c hc
    simp only [added, List.mem_append, List.mem_singleton] at hc
    rcases hc with hc | rfl
    · exact h.nodup c hc
    · rw [List.nodup_append]
      refine ⟨?_, List.nodup_range', ?_⟩
      · refine List.Nodup.map_on ?_ hv.1
        intro a ha b hb hab
        have := hv.2 a ha
        have := hv.2 b hb
        omega
      · intro a ha b hb hab
        have := hmem a ha
        have := (List.mem_range'_1.1 hb).1
        omega
  · intro c hc k hk
    simp only [added, List.mem_append, List.mem_singleton] at hc ⊢
    rcases hc with hc | rfl
    · have := h.bound c hc k hk
      omega
    · rcases List.mem_append.1 hk with hk | hk
      · have := hmem k hk
        omega
      · have := List.mem_range'_1.1 hk
        omega
  · simp [added, h.sizes]; omega
  · intro i c d hc hd
    simp only [added] at hc hd
    by_cases hi : i < s.cliques.length
    · rw [List.getElem?_append_left hi] at hc
      rw [List.getElem?_append_left (by rw [h.lenD, ← h.lenC]; exact hi)] at hd
      exact h.mults i c d hc hd
    · rw [List.getElem?_append_right (by omega)] at hc
      rw [List.getElem?_append_right (by rw [h.lenD, ← h.lenC]; omega)] at hd
      rw [List.getElem?_singleton] at hc hd
      split at hc <;> simp at hc
      split at hd <;> simp at hd
      subst hc hd
      rw [List.filter_append]
      have e1 : (vars.map Int.toNat).filter (fun k => decide (N ≤ k)) = [] := by
        rw [List.filter_eq_nil_iff]
        intro a ha
        have := hmem a ha
        simp; omega
      have e2 : (List.range' s.dualStart m).filter (fun k => decide (N ≤ k)) =
          List.range' s.dualStart m := by
        rw [List.filter_eq_self]
        intro a ha
        have := (List.mem_range'_1.1 ha).1
        simp; omega
      rw [e1, e2]; rfl

theorem extends_refl (s : Manager κ) : Extends s s :=
  ⟨List.prefix_refl _, List.prefix_refl _, List.prefix_refl _, rfl⟩

theorem extends_trans {s t u : Manager κ} (h : Extends s t) (h' : Extends t u) : Extends s u :=
  ⟨h.1.trans h'.1, h.2.1.trans h'.2.1, h.2.2.1.trans h'.2.2.1, h.2.2.2.trans h'.2.2.2⟩

theorem extends_added (s : Manager κ) (x : κ) (m : Nat) (vars : List Int) :
    Extends s (added s x m vars) :=
  ⟨List.prefix_append _ _, List.prefix_append _ _, List.prefix_append _ _, rfl⟩

theorem run_inv {N : Nat} (cs : List (Call κ)) :
    ∀ {s s' : Manager κ}, Inv N s → s.run cs = .ok s' → Inv N s' ∧ Extends s s' := by
  induction cs with
  | nil =>
    intro s s' h hr
    simp [Manager.run] at hr
    subst hr
    exact ⟨h, extends_refl _⟩
  | cons c cs ih =>
    intro s s' h hr
    rw [Manager.run] at hr
    rcases step_cases s c with ⟨h1, _⟩ | ⟨h1, _⟩ | ⟨h1, hv⟩
    · simp [h1, Outcome.bind] at hr
    · simp only [h1, Outcome.bind] at hr
      exact ih h hr
    · simp only [h1, Outcome.bind] at hr
      obtain ⟨i1, i2⟩ := ih (inv_added h _ _ _ hv) hr
      exact ⟨i1, extends_trans (extends_added _ _ _ _) i2⟩

end Verif.CM
