import Verif.Lemmas.FillIn

/-!
# The traversal of `PickCliqueOrderHelper` is greedy
-/

namespace Verif.Clique

open Spec

theorem getWeight_eq_affinity {cs : List (List Nat)} (hs : SortedCliques cs)
    (vl : Option (Nat → Bool)) (a i : Nat) : getWeight cs vl a i = affinity cs vl a i := by
  have h : setInter (cliqueAt cs a) (cliqueAt cs i) =
      (cliqueAt cs a).filter (fun v => decide (v ∈ cliqueAt cs i)) := by
    refine List.Perm.eq_of_pairwise (le := (· < ·)) (fun x y _ _ h1 h2 => by omega) ?_ ?_ ?_
    · exact setInter_sorted (sorted_cliqueAt hs a) _
    · exact List.Pairwise.filter _ (sorted_cliqueAt hs a)
    · refine (List.perm_ext_iff_of_nodup ?_ ?_).2 ?_
      · exact (setInter_sorted (sorted_cliqueAt hs a) _).imp (fun h => by omega)
      · exact (List.Pairwise.filter _ (sorted_cliqueAt hs a)).imp (fun h => by omega)
      · intro v
        rw [mem_setInter (sorted_cliqueAt hs a) (sorted_cliqueAt hs i)]
        simp
  have h' : (setInter (cliqueAt cs a) (cliqueAt cs i)).length =
      (((cs[a]?).getD []).filter (fun v => decide (v ∈ (cs[i]?).getD []))).length := by
    rw [h]
    simp only [cliqueAt]
    congr
  unfold getWeight affinity
  cases vl with
  | none => simp only [h', Nat.add_zero]
  | some ok =>
    simp only [h']
    rw [Nat.add_assoc, Nat.add_comm (ite _ _ _)]

/-- Invariant: every edge was a heaviest one among the cliques not visited before. -/
structure GInv (cs : List (List Nat)) (vl : Option (Nat → Bool)) (s : PState) : Prop where
  nodup : s.order.Nodup
  vis : ∀ i, s.visited i = true ↔ i ∈ s.order
  greedy : ∀ e ∈ s.order, s.parent e ≠ e → 1 ≤ getWeight cs vl (s.parent e) e ∧
    ∀ i, i < cs.length → (i ∉ s.order ∨ Before s.order e i) →
      getWeight cs vl (s.parent e) i ≤ getWeight cs vl (s.parent e) e

theorem GInv.unvis {cs : List (List Nat)} {vl : Option (Nat → Bool)} {s : PState}
    (h : GInv cs vl s) (i : Nat) : s.visited i = false ↔ i ∉ s.order := by
  rw [← h.vis i]
  cases s.visited i <;> simp

theorem before_concat {l : List Nat} {x e i : Nat} (h : Before (l ++ [x]) e i) :
    Before l e i ∨ (i = x ∧ e ∈ l) := by
  obtain ⟨pre, suf, he, hp⟩ := h
  rcases List.eq_nil_or_concat suf with rfl | ⟨suf', y, rfl⟩
  · have := List.append_inj' he rfl
    simp at this
    exact .inr ⟨this.2.symm, this.1 ▸ hp⟩
  · left
    have h2 : l ++ [x] = (pre ++ i :: suf') ++ [y] := by simpa using he
    exact ⟨pre, suf', (List.append_inj' h2 rfl).1, hp⟩

theorem GInv.visitTop {cs : List (List Nat)} {vl : Option (Nat → Bool)} {s : PState}
    (h : GInv cs vl s) (a : Nat) : GInv cs vl (visitTop s a) := by
  unfold Clique.visitTop
  split
  · rename_i hv
    have ha := (h.unvis a).1 hv
    constructor
    · simp only [List.nodup_append]
      exact ⟨h.nodup, by simp, fun x hx y hy e => ha (by simp at hy; rw [← hy, ← e]; exact hx)⟩
    · intro i
      simp only [upd, List.mem_append, List.mem_singleton]
      by_cases hi : i = a
      · simp [hi]
      · simp [hi, h.vis]
    · intro e he hp
      simp only [List.mem_append, List.mem_singleton] at he
      rcases he with he | rfl
      · have hea : e ≠ a := fun x => ha (x ▸ he)
        simp only [upd_ne _ _ hea] at hp ⊢
        obtain ⟨g1, g2⟩ := h.greedy e he hp
        refine ⟨g1, fun i hi hc => g2 i hi ?_⟩
        rcases hc with hc | hc
        · exact .inl fun x => hc (by simp [x])
        · rcases before_concat hc with hc | ⟨rfl, _⟩
          · exact .inr hc
          · exact .inl ha
      · simp only [upd_same] at hp
        exact absurd rfl hp
  · exact h

theorem GInv.pushChild {cs : List (List Nat)} {vl : Option (Nat → Bool)} {s : PState}
    (h : GInv cs vl s) {a e : Nat} (he : e ∉ s.order) (hw : 1 ≤ getWeight cs vl a e)
    (hmax : ∀ i, i < cs.length → i ∉ s.order → getWeight cs vl a i ≤ getWeight cs vl a e) :
    GInv cs vl (pushChild cs a s e) := by
  unfold Clique.pushChild
  constructor
  · simp only [List.nodup_append]
    exact ⟨h.nodup, by simp, fun x hx y hy hxy => he (by simp at hy; rw [← hy, ← hxy]; exact hx)⟩
  · intro i
    simp only [upd, List.mem_append, List.mem_singleton]
    by_cases hi : i = e
    · simp [hi]
    · simp [hi, h.vis]
  · intro x hx hp
    simp only [List.mem_append, List.mem_singleton] at hx
    rcases hx with hx | rfl
    · have hxe : x ≠ e := fun y => he (y ▸ hx)
      simp only [upd_ne _ _ hxe] at hp ⊢
      obtain ⟨g1, g2⟩ := h.greedy x hx hp
      refine ⟨g1, fun i hi hc => g2 i hi ?_⟩
      rcases hc with hc | hc
      · exact .inl fun y => hc (by simp [y])
      · rcases before_concat hc with hc | ⟨rfl, _⟩
        · exact .inr hc
        · exact .inl he
    · simp only [upd_same]
      refine ⟨hw, fun i hi hc => ?_⟩
      rcases hc with hc | hc
      · exact hmax i hi fun y => hc (by simp [y])
      · rcases before_concat hc with hc | ⟨_, hc⟩
        · exact absurd hc.mem_left he
        · exact absurd hc he

theorem GInv.pushChildren {cs : List (List Nat)} {vl : Option (Nat → Bool)} {a : Nat} :
    ∀ (es : List Nat) {s : PState}, GInv cs vl s → es.Nodup →
      (∀ e ∈ es, e ∉ s.order ∧ 1 ≤ getWeight cs vl a e ∧
        ∀ i, i < cs.length → i ∉ s.order → getWeight cs vl a i ≤ getWeight cs vl a e) →
      GInv cs vl (pushChildren cs vl a s es) := by
  intro es
  induction es with
  | nil => intro s h _ _; exact h
  | cons e es ih =>
    intro s h hnd hes
    obtain ⟨e1, e2, e3⟩ := hes e (by simp)
    have h' := h.pushChild e1 e2 e3
    have hrec : GInv cs vl (Clique.pushChildren cs vl a (Clique.pushChild cs a s e) es) := by
      refine ih h' (List.nodup_cons.1 hnd).2 ?_
      intro x hx
      obtain ⟨x1, x2, x3⟩ := hes x (by simp [hx])
      refine ⟨?_, x2, fun i hi hio => x3 i hi fun y => hio (by simp [Clique.pushChild, y])⟩
      simp only [Clique.pushChild, List.mem_append, List.mem_singleton, not_or]
      exact ⟨x1, fun hxe => (List.nodup_cons.1 hnd).1 (hxe ▸ hx)⟩
    unfold Clique.pushChildren
    cases vl with
    | none => exact hrec
    | some v =>
      simp only
      split
      · exact hrec
      · exact h'

theorem GInv.pickStep {cs : List (List Nat)} {vl : Option (Nat → Bool)} {s s' : PState}
    (h : GInv cs vl s) (e : pickStep cs vl s = some s') : GInv cs vl s' := by
  unfold Clique.pickStep at e
  cases hst : s.stack with
  | nil => simp [hst] at e
  | cons a rest =>
    rw [hst] at e
    simp only at e
    have h1 := h.visitTop a
    have ha : a ∈ (Clique.visitTop s a).order := by
      rw [← h1.vis]
      unfold Clique.visitTop
      split
      · simp [upd]
      · simp_all
    cases ham : argmax cs vl (Clique.visitTop s a).visited a with
    | cons x xs =>
      rw [ham] at e
      simp only [Option.some.injEq] at e
      subst e
      rw [← ham]
      obtain ⟨hnd, hmem⟩ := mem_argmax cs vl (Clique.visitTop s a).visited a
      refine h1.pushChildren _ hnd ?_
      intro c hc
      obtain ⟨m1, m2, m3, m4, m5⟩ := (hmem c).1 hc
      exact ⟨(h1.unvis c).1 m3, m4, fun i hi hio => m5 i hi (fun y => hio (y ▸ ha))
        ((h1.unvis i).2 hio)⟩
    | nil =>
      rw [ham] at e
      cases rest with
      | nil =>
        simp only at e
        cases hgu : getUnvisited cs.length (Clique.visitTop s a).visited with
        | none => simp [hgu] at e
        | some node =>
          simp only [hgu, Option.some.injEq] at e
          subst e
          exact ⟨h1.nodup, h1.vis, h1.greedy⟩
      | cons b bs =>
        simp only [Option.some.injEq] at e
        subst e
        exact ⟨h1.nodup, h1.vis, h1.greedy⟩

theorem GInv.pickLoop {cs : List (List Nat)} {vl : Option (Nat → Bool)} :
    ∀ (fuel : Nat) {s s' : PState}, GInv cs vl s → pickLoop cs vl fuel s = some s' →
      GInv cs vl s' := by
  intro fuel
  induction fuel with
  | zero =>
    intro s s' h e
    unfold Clique.pickLoop at e
    split at e <;> simp_all
  | succ fuel ih =>
    intro s s' h e
    unfold Clique.pickLoop at e
    split at e
    · cases hp : Clique.pickStep cs vl s with
      | none =>
        simp only [hp, Option.some.injEq] at e
        subst e
        unfold pickBreakState
        split
        · exact h
        · exact h.visitTop _
      | some s1 =>
        simp only [hp] at e
        exact ih (h.pickStep hp) e
    · simp only [Option.some.injEq] at e
      exact e ▸ h

theorem pickHelper_greedy {cs : List (List Nat)} {vl : Option (Nat → Bool)} {root : Nat}
    {s : PState} (e : pickHelper cs vl root = some s) : GInv cs vl s :=
  GInv.pickLoop _ ⟨by simp [pickInit], by simp [pickInit], by simp [pickInit]⟩ e

/-- The order and the tree that are returned come from one traversal. -/
theorem pickCliqueOrder_helper {cs : List (List Nat)} {vl : Option (Nat → Bool)} {root : Int}
    {S : Symbolic} (h : pickCliqueOrder cs vl root = .ok S) :
    ∃ s rt, pickHelper cs vl rt = some s ∧ S.order = s.order.reverse ∧ S.parent = s.parent := by
  unfold pickCliqueOrder at h
  obtain ⟨t, ht, h⟩ : ∃ t, getCliqueEliminationOrder cs vl root = .ok t ∧
      ((getMax cs).bind fun m => fillIn t (m + 1)) = .ok S := by
    cases hg : getCliqueEliminationOrder cs vl root <;> simp_all [Outcome.bind]
  have hS : S.order = t.order ∧ S.parent = t.parent := by
    cases hm : getMax cs with
    | ok m =>
      rw [hm] at h
      simp only [Outcome.bind, fillIn] at h
      split at h <;> simp_all
      subst h
      simp
    | _ => simp [hm, Outcome.bind] at h
  unfold getCliqueEliminationOrder at ht
  split at ht
  · simp at ht
  · split at ht
    · simp at ht
    · rename_i s hs
      split at ht
      · split at ht
        · simp at ht
        · split at ht
          · simp at ht
          · rename_i s' hs'
            simp at ht
            exact ⟨s', _, hs', by rw [hS.1, ← ht]; rfl, by rw [hS.2, ← ht]; rfl⟩
      · simp at ht
        exact ⟨s, _, hs, by rw [hS.1, ← ht]; rfl, by rw [hS.2, ← ht]; rfl⟩

end Verif.Clique
